import Verif.Proof.Io

/-!
# Statistics, interrupts and the log as invariants
-/

set_option linter.unusedSectionVars false

namespace Scuttle

open Spec

variable {P C α β : Type} {env : Env} {s : Slv P C}

/-! ## Statistics -/

/-- Number of solutions listed in a front. -/
def nListed (f : ParetoFront Assignment) : Nat := (f.map fun p => p.sols.length).sum

/-- What has been counted since the start of the call, with `p` solutions of a point that is not yet in the front. -/
def StatRun (f0 : ParetoFront Assignment) (st0 : Stats) (p : Nat) (s : Slv P C) : Prop :=
  ∃ new, s.front = f0 ++ new ∧ s.io.stats.nNonDominated = st0.nNonDominated + new.length ∧
    s.io.stats.nSolutions = st0.nSolutions + nListed new + p ∧ s.io.stats.nSolveCalls = st0.nSolveCalls

/-- What has been counted when the call stops early. -/
def StatEnd (f0 : ParetoFront Assignment) (st0 : Stats) (s : Slv P C) : Prop :=
  ∃ new, s.front = f0 ++ new ∧ s.io.stats.nNonDominated = st0.nNonDominated + new.length ∧
    st0.nSolutions + nListed new ≤ s.io.stats.nSolutions ∧ s.io.stats.nSolveCalls = st0.nSolveCalls

variable {f0 : ParetoFront Assignment} {st0 : Stats} {p : Nat}

theorem StatRun.end (h : StatRun f0 st0 p s) : StatEnd f0 st0 s := by
  obtain ⟨new, h1, h2, h3, h4⟩ := h
  exact ⟨new, h1, h2, by omega, h4⟩

theorem StatRun.congr {s' : Slv P C} (h : StatRun f0 st0 p s) (h1 : s'.front = s.front) (h2 : s'.io.stats = s.io.stats) :
    StatRun f0 st0 p s' := by
  unfold StatRun at *; rw [h1, h2]; exact h

theorem StatRun.other {s' : Slv P C} {k : Limited} (h : StatRun f0 st0 p s) (hc : Charged k s s')
    (hk : k = .candidates ∨ k = .oracleCalls) : StatRun f0 st0 p s' := by
  obtain ⟨new, h1, h2, h3, h4⟩ := h
  have a1 := (hc.others .points (by rcases hk with rfl | rfl <;> simp)).1
  have a2 := (hc.others .solutions (by rcases hk with rfl | rfl <;> simp)).1
  simp only [Limited.count] at a1 a2
  exact ⟨new, by rw [hc.front, h1], by rw [a1, h2], by rw [a2, h3], by rw [hc.solveCalls, h4]⟩

theorem nListed_append (a b : ParetoFront Assignment) : nListed (a ++ b) = nListed a + nListed b := by
  simp [nListed]

theorem nListed_single (nd : NonDomPoint Assignment) : nListed [nd] = nd.sols.length := by simp [nListed]

/-- Adding the point after it was counted. -/
theorem StatRun.collect {s' : Slv P C} {nd : NonDomPoint Assignment} (h : StatRun f0 st0 p s) (hp : nd.sols.length = p)
    (hc : Charged .points s s') : StatRun f0 st0 0 { s' with front := s'.front ++ [nd] } := by
  obtain ⟨new, h1, h2, h3, h4⟩ := h
  have a2 := (hc.others .solutions (by simp)).1
  have a1 := hc.count
  simp only [Limited.count] at a1 a2
  refine ⟨new ++ [nd], ?_, ?_, ?_, ?_⟩
  · show s'.front ++ [nd] = _
    rw [hc.front, h1, List.append_assoc]
  · show s'.io.stats.nNonDominated = _
    rw [a1, h2, List.length_append, List.length_singleton]; omega
  · show s'.io.stats.nSolutions = _
    rw [a2, h3, nListed_append, nListed_single]; omega
  · show s'.io.stats.nSolveCalls = _
    rw [hc.solveCalls, h4]

/-- Statistics as an invariant. Nothing is claimed about panics. -/
theorem statLogic (env : Env) (f0 : ParetoFront Assignment) (st0 : Stats) :
    IoLogic (P := P) (C := C) env (fun _ p _ s => StatRun f0 st0 p s)
      (fun e s => e ≠ .panic → StatEnd f0 st0 s) where
  frame := fun h hf h' => h'.congr hf (by rw [h])
  called := fun h => h
  halt := fun e he h _ => h.end
  start := fun x s h => wpio_logEvent (fun s' a1 _ _ a4 _ _ => h.congr a1 a4) (fun s' a1 _ _ a4 _ _ _ _ => (h.congr a1 a4).end)
  finish := fun s h => wpio_logEvent (fun s' a1 _ _ a4 _ _ => h.congr a1 a4) (fun s' a1 _ _ a4 _ _ _ _ => (h.congr a1 a4).end)
  fence := fun x s h => wpio_logEvent (fun s' a1 _ _ a4 _ _ => h.congr a1 a4) (fun s' a1 _ _ a4 _ _ _ _ => (h.congr a1 a4).end)
  heur := fun i a b s h => wpio_logEvent (fun s' a1 _ _ a4 _ _ => h.congr a1 a4) (fun s' a1 _ _ a4 _ _ _ _ => (h.congr a1 a4).end)
  check := fun s h => wpio_check fun s' hs' => by
    subst hs'
    exact ⟨fun _ => h.congr rfl rfl, fun _ _ => (h.congr (s := s) rfl rfl).end⟩
  cand := fun costs ph s h => by
    unfold logCandidate
    rw [wp_bind, wp_getS, wp_bind, wp_dbg_iff]
    split
    · exact fun _ => h.end
    · exact wpio_charge (k := .candidates) (ev := .candidate costs ph) (fun _ hc _ _ => h.other hc (Or.inl rfl))
        (fun _ hc _ _ _ _ => (h.other hc (Or.inl rfl)).end) (fun _ hc _ _ _ => (h.other hc (Or.inl rfl)).end)
        (fun _ hc _ _ _ _ => (h.other hc (Or.inl rfl)).end)
  call := fun a s h => wpio_solveAssumps (fun s' hs _ => (h.congr hs.front hs.stats).end)
    (fun s' hs _ => (h.congr hs.front hs.stats).end) fun s' r hs => by
      have h := h.congr hs.front hs.stats
      exact wpio_charge (k := .oracleCalls) (ev := .oracleCall r) (fun _ hc _ _ => h.other hc (Or.inr rfl))
        (fun _ hc _ _ _ _ => (h.other hc (Or.inr rfl)).end) (fun _ hc _ _ _ => (h.other hc (Or.inr rfl)).end)
        (fun _ hc _ _ _ _ => (h.other hc (Or.inr rfl)).end)
  sol := fun {d p c} nd hnd s h => by
    have step : ∀ s', Charged .solutions s s' → StatRun f0 st0 (p + 1) s' := by
      intro s' hc
      obtain ⟨new, h1, h2, h3, h4⟩ := h
      have a1 := (hc.others .points (by simp)).1
      have a2 := hc.count
      simp only [Limited.count] at a1 a2
      exact ⟨new, by rw [hc.front, h1], by rw [a1, h2], by rw [a2, h3]; omega, by rw [hc.solveCalls, h4]⟩
    have key : ∀ e s1, Charged .solutions s s1 → wp env (do
        let ndTerm ← attempt (logNonDominated nd)
        Scuttle.collect nd
        ofExcept ndTerm
        stop e : M P C Unit) (fun _ _ => True) (fun e s => e ≠ .panic → StatEnd f0 st0 s) s1 := by
      intro e s1 hc
      have h1 := step s1 hc
      rw [wp_bind]
      refine wp_attempt ?_
      rw [logNonDominated_eq]
      exact wpio_charge (fun s2 hc2 _ _ _ => (h1.collect hnd hc2).end) (fun s2 hc2 _ _ _ _ => (h1.collect hnd hc2).end)
        (fun s2 hc2 _ _ _ => (h1.collect hnd hc2).end) (fun _ _ _ _ _ h => absurd rfl h)
    refine wp_attempt ?_
    rw [logSolution_eq]
    exact wpio_charge (fun s1 hc _ _ => step s1 hc) (fun s1 hc _ _ _ => key _ s1 hc) (fun s1 hc _ _ => key _ s1 hc)
      (fun _ _ _ _ _ h => absurd rfl h)
  point := fun {d p c} nd hnd s h => by
    have key : ∀ (r : Except Stop Unit) s1, Charged .points s s1 → wp env (do
        Scuttle.collect nd
        logRoutineEnd
        ofExcept r : M P C Unit) (fun _ s => StatRun f0 st0 0 s) (fun e s => e ≠ .panic → StatEnd f0 st0 s) s1 := by
      intro r s1 hc
      have h1 := h.collect hnd hc
      rw [wp_bind]
      show wp env (do logRoutineEnd; ofExcept r : M P C Unit) _ _ _
      rw [wp_bind]
      refine wpio_logEvent (fun s' a1 _ _ a4 _ _ => ?_) (fun s' a1 _ _ a4 _ _ _ _ => (h1.congr a1 a4).end)
      cases r with
      | ok u => exact h1.congr a1 a4
      | error e => exact fun _ => (h1.congr a1 a4).end
    rw [wp_bind]
    refine wp_attempt ?_
    rw [logNonDominated_eq]
    exact wpio_charge (fun s1 hc _ _ => key _ s1 hc) (fun s1 hc _ _ _ => key _ s1 hc) (fun s1 hc _ _ => key _ s1 hc)
      (fun _ _ _ _ _ h => absurd rfl h)

/-! ## Statistics about the instance -/

/-- The statistics about the instance do not change, whatever happens. -/
theorem fixedLogic (env : Env) (x : Nat × Nat × Nat) :
    IoLogic (P := P) (C := C) env (fun _ _ _ s => s.io.stats.ofInstance = x) (fun _ s => s.io.stats.ofInstance = x) where
  frame := fun h _ h' => by rw [h]; exact h'
  called := fun h => h
  halt := fun _ _ h => h
  start := fun _ s h => wpio_logEvent (fun _ _ _ _ a _ _ => by rw [a]; exact h) (fun _ _ _ _ a _ _ _ => by rw [a]; exact h)
  finish := fun s h => wpio_logEvent (fun _ _ _ _ a _ _ => by rw [a]; exact h) (fun _ _ _ _ a _ _ _ => by rw [a]; exact h)
  fence := fun _ s h => wpio_logEvent (fun _ _ _ _ a _ _ => by rw [a]; exact h) (fun _ _ _ _ a _ _ _ => by rw [a]; exact h)
  heur := fun _ _ _ s h => wpio_logEvent (fun _ _ _ _ a _ _ => by rw [a]; exact h) (fun _ _ _ _ a _ _ _ => by rw [a]; exact h)
  check := fun s h => wpio_check fun s' hs' => by
    subst hs'
    exact ⟨fun _ => h, fun _ => h⟩
  cand := fun costs ph s h => by
    unfold logCandidate
    rw [wp_bind, wp_getS, wp_bind, wp_dbg_iff]
    split
    · exact h
    · exact wpio_charge (k := .candidates) (ev := .candidate costs ph) (fun _ hc _ _ => hc.fixed.trans h)
        (fun _ hc _ _ _ => hc.fixed.trans h) (fun _ hc _ _ => hc.fixed.trans h) (fun _ hc _ _ _ => hc.fixed.trans h)
  call := fun a s h => wpio_solveAssumps (fun s' hs => by rw [hs.stats]; exact h)
    (fun s' hs => by rw [hs.stats]; exact h) fun s' r hs => by
      have h : s'.io.stats.ofInstance = x := by rw [hs.stats]; exact h
      exact wpio_charge (k := .oracleCalls) (ev := .oracleCall r) (fun _ hc _ _ => hc.fixed.trans h)
        (fun _ hc _ _ _ => hc.fixed.trans h) (fun _ hc _ _ => hc.fixed.trans h) (fun _ hc _ _ _ => hc.fixed.trans h)
  sol := fun {d p c} nd hnd s h => by
    have key : ∀ e (s1 : Slv P C), s1.io.stats.ofInstance = x → wp env (do
        let ndTerm ← attempt (logNonDominated nd)
        Scuttle.collect nd
        ofExcept ndTerm
        stop e : M P C Unit) (fun _ _ => True) (fun _ s => s.io.stats.ofInstance = x) s1 := by
      intro e s1 h1
      rw [wp_bind]
      refine wp_attempt ?_
      rw [logNonDominated_eq]
      exact wpio_charge (fun _ hc _ _ => hc.fixed.trans h1) (fun _ hc _ _ _ => hc.fixed.trans h1)
        (fun _ hc _ _ => hc.fixed.trans h1) (fun _ hc _ _ _ => hc.fixed.trans h1)
    refine wp_attempt ?_
    rw [logSolution_eq]
    exact wpio_charge (fun _ hc _ _ => hc.fixed.trans h) (fun s1 hc _ _ _ => key _ s1 (hc.fixed.trans h))
      (fun s1 hc _ _ => key _ s1 (hc.fixed.trans h)) (fun s1 hc _ _ _ => hc.fixed.trans h)
  point := fun {d p c} nd hnd s h => by
    have key : ∀ (r : Except Stop Unit) (s1 : Slv P C), s1.io.stats.ofInstance = x → wp env (do
        Scuttle.collect nd
        logRoutineEnd
        ofExcept r : M P C Unit) (fun _ s => s.io.stats.ofInstance = x) (fun _ s => s.io.stats.ofInstance = x) s1 := by
      intro r s1 h1
      rw [wp_bind]
      show wp env (do logRoutineEnd; ofExcept r : M P C Unit) _ _ _
      rw [wp_bind]
      refine wpio_logEvent (fun s' _ _ _ a4 _ _ => ?_) (fun s' _ _ _ a4 _ _ _ => by rw [a4]; exact h1)
      cases r with
      | ok u => show s'.io.stats.ofInstance = x; rw [a4]; exact h1
      | error e => show s'.io.stats.ofInstance = x; rw [a4]; exact h1
    rw [wp_bind]
    refine wp_attempt ?_
    rw [logNonDominated_eq]
    exact wpio_charge (fun s1 hc _ _ => key _ s1 (hc.fixed.trans h)) (fun s1 hc _ _ _ => key _ s1 (hc.fixed.trans h))
      (fun s1 hc _ _ => key _ s1 (hc.fixed.trans h)) (fun s1 hc _ _ _ => hc.fixed.trans h)

/-! ## Interrupts -/

/-- While the call goes on: no oracle call of this call to `solve` returned after the flag was set. -/
def CallRun (env : Env) (calls0 : List Nat) (t0 : Nat) (c : Bool) (s : Slv P C) : Prop :=
  t0 ≤ s.io.tick ∧ ∃ new, s.io.calls = calls0 ++ new ∧ (∀ t ∈ new, t0 ≤ t ∧ env.flag (t + 1) = false) ∧
    (c = true → new ≠ [])

/-- When the call stops early: at most the last oracle call returned after the flag was set, and then the reason is the
interrupt or an error. -/
def CallEnd (env : Env) (calls0 : List Nat) (t0 : Nat) (e : Stop) (s : Slv P C) : Prop :=
  (e = .terminated .interrupted → ∃ t, env.flag t = true) ∧
  ∃ new, s.io.calls = calls0 ++ new ∧ (∀ t ∈ new, t0 ≤ t) ∧ (∀ t ∈ new.dropLast, env.flag (t + 1) = false) ∧
    ((∃ t ∈ new, env.flag (t + 1) = true) → e = .terminated .interrupted ∨ e = .error)

variable {calls0 : List Nat} {t0 : Nat} {c : Bool}

theorem CallRun.end {e : Stop} (h : CallRun env calls0 t0 c s)
    (he : e = .terminated .interrupted → ∃ t, env.flag t = true) : CallEnd env calls0 t0 e s := by
  obtain ⟨_, new, h1, h2, _⟩ := h
  refine ⟨he, new, h1, fun t ht => (h2 t ht).1, fun t ht => (h2 t (List.dropLast_subset _ ht)).2, ?_⟩
  rintro ⟨t, ht, hf⟩
  rw [(h2 t ht).2] at hf
  simp at hf

theorem CallRun.congr {s' : Slv P C} (h : CallRun env calls0 t0 c s) (h1 : s'.io.calls = s.io.calls)
    (h2 : s.io.tick ≤ s'.io.tick) : CallRun env calls0 t0 c s' := by
  obtain ⟨a, new, b⟩ := h
  exact ⟨by omega, new, by rw [h1]; exact b.1, b.2⟩

theorem CallRun.charge {E : Stop → Slv P C → Prop} {Q : Unit → Slv P C → Prop} {k : Limited} {ev : LogEvent}
    (h : CallRun env calls0 t0 c s) (hQ : ∀ s', CallRun env calls0 t0 c s' → Q () s')
    (hE : ∀ e s', e ≠ .terminated .interrupted → CallRun env calls0 t0 c s' → E e s') :
    wp env (Scuttle.charge k ev) Q E s :=
  wpio_charge (fun s' hc _ _ => hQ s' (h.congr hc.calls hc.tick))
    (fun s' hc _ _ _ => hE _ s' (by simp) (h.congr hc.calls hc.tick))
    (fun s' hc _ _ => hE _ s' (by cases k <;> simp [Limited.reason]) (h.congr hc.calls hc.tick))
    (fun s' hc _ _ _ => hE _ s' (by simp) (h.congr hc.calls hc.tick))

theorem callLogic_event (ev : LogEvent) : Tr (P := P) (C := C) env (CallRun env calls0 t0 c) (logEvent ev)
    (fun _ => CallRun env calls0 t0 c) (CallEnd env calls0 t0) := fun s h => wpio_logEvent
  (fun s' _ a2 a3 _ _ _ => h.congr a2 a3) (fun s' _ a2 a3 _ _ _ _ => (h.congr a2 a3).end (by simp))

/-- Interrupts as an invariant. -/
theorem callLogic (env : Env) (hst : Sticky env.flag) (calls0 : List Nat) (t0 : Nat) :
    IoLogic (P := P) (C := C) env (fun _ _ c s => CallRun env calls0 t0 c s) (CallEnd env calls0 t0) where
  frame := fun h _ h' => h'.congr (by rw [h]) (by rw [h]; exact Nat.le.refl)
  called := fun ⟨a, new, b⟩ => ⟨a, new, b.1, b.2.1, fun _ => b.2.2 rfl⟩
  halt := fun e he h => h.end (by rcases he with rfl | rfl | rfl <;> simp)
  start := fun x => callLogic_event _
  finish := callLogic_event _
  fence := fun x => callLogic_event _
  heur := fun i a b => callLogic_event _
  check := fun s h => wpio_check fun s' hs' => by
    subst hs'
    exact ⟨fun _ => h.congr rfl (Nat.le_succ _), fun hf => CallRun.end (h.congr rfl (Nat.le_succ _)) fun _ => ⟨_, hf⟩⟩
  cand := fun costs ph s h => by
    unfold logCandidate
    rw [wp_bind, wp_getS, wp_bind, wp_dbg_iff]
    split
    · exact h.end (by simp)
    · exact h.charge (k := .candidates) (ev := .candidate costs ph) (fun _ h => h) fun e s' he h => h.end (by simp [he])
  call := fun {d p c} a s h => by
    unfold solveAssumps
    rw [wp_bind]
    refine wp_mono (callLogic_event (calls0 := calls0) (t0 := t0) _ s h) ?_ (fun _ _ h => h)
    intro _ s1 h
    obtain ⟨ht, new, h1, h2, -⟩ := h
    rw [wp_bind]
    refine wpio_oracleSolve fun r s2 _ b2 => ?_
    have hcalls : s2.io.calls = calls0 ++ (new ++ [s1.io.tick]) := by rw [b2, ← List.append_assoc, ← h1]
    have htick : s2.io.tick = s1.io.tick + 1 := by rw [b2]
    rw [wp_bind]
    refine wpio_logEvent ?_ ?_
    · intro s3 _ a2 a3 _ _ _
      rw [wp_bind]
      refine wpio_check fun s4 hs4 => ?_
      have c4 : s4.io.calls = calls0 ++ (new ++ [s1.io.tick]) := by subst hs4; rw [← hcalls, ← a2]
      have t4 : s4.io.tick = s3.io.tick + 1 := by subst hs4; rfl
      refine ⟨fun hf => ?_, fun hf => ?_⟩
      · have h4 : CallRun env calls0 t0 true s4 := by
          refine ⟨by omega, _, c4, ?_, by simp⟩
          intro t htm
          rcases List.mem_append.1 htm with h | h
          · exact h2 t h
          · obtain rfl := List.mem_singleton.1 h
            refine ⟨ht, ?_⟩
            by_contra hc
            have := hst (s1.io.tick + 1) s3.io.tick (by omega) (by simpa using hc)
            rw [hf] at this
            simp at this
        rw [wp_bind, logOracleCall_eq]
        exact h4.charge (fun _ h => h) fun e s' he h => h.end (by simp [he])
      · refine ⟨fun _ => ⟨_, hf⟩, _, c4, ?_, ?_, fun _ => Or.inl rfl⟩
        · intro t htm
          rcases List.mem_append.1 htm with h | h
          · exact (h2 t h).1
          · obtain rfl := List.mem_singleton.1 h; exact ht
        · rw [List.dropLast_concat]
          exact fun t h => (h2 t h).2
    · intro s3 _ a2 _ _ _ _ _
      refine ⟨by simp, _, by rw [a2, hcalls], ?_, ?_, fun _ => Or.inr rfl⟩
      · intro t htm
        rcases List.mem_append.1 htm with h | h
        · exact (h2 t h).1
        · obtain rfl := List.mem_singleton.1 h; exact ht
      · rw [List.dropLast_concat]
        exact fun t h => (h2 t h).2
  sol := fun {d p c} nd _ s h => by
    have key : ∀ e s1, e ≠ .terminated .interrupted → CallRun env calls0 t0 c s1 → wp env (do
        let ndTerm ← attempt (logNonDominated nd)
        collect nd
        ofExcept ndTerm
        stop e : M P C Unit) (fun _ _ => True) (CallEnd env calls0 t0) s1 := by
      intro e s1 he h1
      rw [wp_bind]
      refine wp_attempt ?_
      rw [logNonDominated_eq]
      refine h1.charge (fun s2 h => (h.congr (s' := { s2 with front := s2.front ++ [nd] }) rfl Nat.le.refl).end (by simp [he])) ?_
      intro e' s2 he' h2
      cases e' with
      | panic => exact h2.end (by simp)
      | fuel => exact h2.end (by simp)
      | error => exact (h2.congr (s' := { s2 with front := s2.front ++ [nd] }) rfl Nat.le.refl).end (by simp)
      | terminated t => exact (h2.congr (s' := { s2 with front := s2.front ++ [nd] }) rfl Nat.le.refl).end (by simp [he'])
    refine wp_attempt ?_
    rw [logSolution_eq]
    refine h.charge (fun _ h => h) fun e s1 he h1 => ?_
    cases e with
    | panic => exact h1.end (by simp)
    | fuel => exact h1.end (by simp)
    | error => exact key _ s1 he h1
    | terminated t => exact key _ s1 he h1
  point := fun {d p c} nd _ s h => by
    have key : ∀ (r : Except Stop Unit) s1, r ≠ .error (.terminated .interrupted) → CallRun env calls0 t0 c s1 → wp env (do
        collect nd
        logRoutineEnd
        ofExcept r : M P C Unit) (fun _ s => CallRun env calls0 t0 c s) (CallEnd env calls0 t0) s1 := by
      intro r s1 hr h1
      rw [wp_bind]
      show wp env (do logRoutineEnd; ofExcept r : M P C Unit) _ _ _
      rw [wp_bind]
      refine wp_mono (callLogic_event (c := c) (calls0 := calls0) (t0 := t0) _ _
        (h1.congr (s' := { s1 with front := s1.front ++ [nd] }) rfl Nat.le.refl)) ?_ (fun _ _ h => h)
      intro _ s2 h2
      cases r with
      | ok u => exact h2
      | error e => exact h2.end fun h => absurd (by rw [h]) hr
    rw [wp_bind]
    refine wp_attempt ?_
    rw [logNonDominated_eq]
    refine h.charge (fun s1 h => key _ s1 (by simp) h) fun e s1 he h1 => ?_
    cases e with
    | panic => exact h1.end (by simp)
    | fuel => exact h1.end (by simp)
    | error => exact key _ s1 (by simp) h1
    | terminated t => exact key _ s1 (by simpa using he) h1

end Scuttle
