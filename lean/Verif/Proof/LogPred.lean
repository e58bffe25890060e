import Verif.Proof.Io
import Verif.SpecLogTrue

/-!
# Properties of the messages as invariants
-/

set_option linter.unusedSectionVars false

namespace Scuttle

open Spec

variable {P C α β : Type} {env : Env} {s : Slv P C}

/-- If there is a log, it has the property. -/
def LogHas (R : List LogEvent → Prop) (s : Slv P C) : Prop := ∀ l, s.io.logger = some l → R l

/-- A property of logs with a given number of open routines, and one that is left when a call stops. Fences are not
considered. -/
structure LogPred (R : Nat → List LogEvent → Prop) (Rend : List LogEvent → Prop) : Prop where
  halt : ∀ {d l}, R d l → Rend l
  start : ∀ {d l} x, R d l → R (d + 1) (l ++ [.routineStart x])
  finish : ∀ {d l}, R (d + 1) l → R d (l ++ [.routineEnd])
  cand : ∀ {d l} c ph, R d l → R d (l ++ [.candidate c ph])
  call : ∀ {d l} r, R (d + 1) l → R (d + 1) (l ++ [.oracleCall r])
  sol : ∀ {d l}, R (d + 1) l → R (d + 1) (l ++ [.solution])
  point : ∀ {d l} p, R (d + 1) l → R (d + 1) (l ++ [.nonDominated p])
  heur : ∀ {d l} i a b, R d l → R d (l ++ [.heurImprovement i a b])

variable {R R' R'' : List LogEvent → Prop}

theorem LogHas.mono (h : LogHas R s) (hR : ∀ l, R l → R' l) : LogHas R' s := fun l hl => hR l (h l hl)

theorem LogHas.congr {s' : Slv P C} (h : LogHas R s) (hl : s'.io.logger = s.io.logger) : LogHas R s' := by
  unfold LogHas; rw [hl]; exact h

theorem LogHas.logged {s' : Slv P C} {ev : LogEvent} (h : LogHas R s) (hl : Logged ev s s')
    (hR : ∀ l, R l → R' (l ++ [ev])) : LogHas R' s' := by
  intro l' hl'
  rw [hl, Option.map_eq_some_iff] at hl'
  obtain ⟨l, h1, rfl⟩ := hl'
  exact hR l (h l h1)

theorem LogHas.event {ev : LogEvent} (h : LogHas R s) (hR : ∀ l, R l → R' (l ++ [ev])) (hE : ∀ l, R l → R'' l) :
    wp env (logEvent ev) (fun _ => LogHas R') (fun _ => LogHas R'') s :=
  wpio_logEvent (fun _ _ _ _ _ _ hl => h.logged hl hR) (fun _ _ _ _ _ _ hl _ => (h.congr hl).mono hE)

theorem LogHas.charge {k : Limited} {ev : LogEvent} (h : LogHas R s) (hR : ∀ l, R l → R' (l ++ [ev]))
    (hE : ∀ l, R l → R'' l) (hE' : ∀ l, R' l → R'' l) :
    wp env (Scuttle.charge k ev) (fun _ => LogHas R') (fun _ => LogHas R'') s :=
  wpio_charge (fun _ _ hl _ => h.logged hl hR) (fun _ _ hl _ _ => (h.congr hl).mono hE)
    (fun _ _ hl _ => (h.logged hl hR).mono hE') (fun _ _ hl _ _ => (h.logged hl hR).mono hE')

/-- The rule for a call of the oracle. -/
theorem LogHas.call {d : Nat} {T : Nat → List LogEvent → Prop} {Tend : List LogEvent → Prop}
    {T' : SolverResult → List LogEvent → Prop} (h : LogHas (T d) s)
    (halt : ∀ {d l}, T d l → Tend l) (start : ∀ {l} x, T d l → T (d + 1) (l ++ [.routineStart x]))
    (finish : ∀ {l}, T (d + 1) l → T d (l ++ [.routineEnd])) (call : ∀ {l} r, T d l → T' r (l ++ [.oracleCall r]))
    (halt' : ∀ {r l}, T' r l → Tend l) (a : List Lit) :
    wp env (solveAssumps a) (fun r => LogHas (T' r)) (fun _ => LogHas Tend) s := by
  unfold solveAssumps
  rw [wp_bind]
  refine wp_mono (h.event (R'' := Tend) (fun l h => start "oracle call" h) fun l => halt) ?_ (fun _ _ h => h)
  intro _ s1 h1
  rw [wp_bind]
  refine wpio_oracleSolve fun r s2 _ b2 => ?_
  have h2 : LogHas (T (d + 1)) s2 := h1.congr (by rw [b2])
  rw [wp_bind]
  refine wp_mono (h2.event (R'' := Tend) (fun l h => finish h) fun l => halt) ?_ (fun _ _ h => h)
  intro _ s3 h3
  rw [wp_bind]
  refine wpio_check fun s4 hs4 => ?_
  have h4 : LogHas (T d) s4 := by subst hs4; exact h3
  refine ⟨fun _ => ?_, fun _ => h4.mono fun l => halt⟩
  rw [wp_bind, logOracleCall_eq]
  exact h4.charge (fun l h => call r h) (fun l => halt) (fun l => halt')

/-- Such a property is an invariant. -/
theorem LogPred.core {R : Nat → List LogEvent → Prop} {Rend : List LogEvent → Prop} (L : LogPred R Rend) (env : Env) :
    IoCore (P := P) (C := C) env (fun d _ _ => LogHas (R d)) (fun _ => LogHas Rend) where
  frame := fun h _ h' => h'.congr (by rw [h])
  called := fun h => h
  halt := fun _ _ h => h.mono fun _ => L.halt
  start := fun x s h => h.event (fun _ => L.start x) fun _ => L.halt
  finish := fun s h => h.event (fun _ => L.finish) fun _ => L.halt
  heur := fun i a b s h => h.event (fun _ => L.heur i a b) fun _ => L.halt
  check := fun s h => wpio_check fun s' hs' => by
    subst hs'
    exact ⟨fun _ => h, fun _ => h.mono fun _ => L.halt⟩
  cand := fun costs ph s h => by
    unfold logCandidate
    rw [wp_bind, wp_getS, wp_bind, wp_dbg_iff]
    split
    · exact h.mono fun _ => L.halt
    · exact h.charge (k := .candidates) (fun _ => L.cand costs ph) (fun _ => L.halt) (fun _ => L.halt)
  call := fun {d p c} a s h => LogHas.call (T := R) (T' := fun _ => R (d + 1)) h L.halt L.start L.finish L.call L.halt a
  sol := fun {d p c} nd _ s h => by
    refine wp_attempt ?_
    rw [logSolution_eq]
    have hpt : ∀ (s1 : Slv P C) (e : Stop), LogHas (R (d + 1)) s1 → wp env (do
        let ndTerm ← attempt (logNonDominated nd)
        collect nd
        ofExcept ndTerm
        stop e : M P C Unit) (fun _ _ => True) (fun _ => LogHas Rend) s1 := by
      intro s1 e h1
      rw [wp_bind]
      refine wp_attempt ?_
      rw [logNonDominated_eq]
      refine wp_mono (h1.charge (k := .points) (R'' := R (d + 1)) (fun _ => L.point nd) (fun _ h => h) (fun _ h => h)) ?_ ?_
      · exact fun _ s2 h2 => h2.mono fun _ => L.halt
      · exact fun e s2 h2 => by cases e <;> exact h2.mono fun _ => L.halt
    refine wp_mono (h.charge (k := .solutions) (R'' := R (d + 1)) (fun _ => L.sol) (fun _ h => h) (fun _ h => h)) ?_ ?_
    · exact fun _ s1 h1 => h1
    · exact fun e s1 h1 => by cases e <;> first | exact h1.mono (fun _ => L.halt) | exact hpt s1 _ h1
  point := fun {d p c} nd _ s h => by
    rw [wp_bind]
    refine wp_attempt ?_
    rw [logNonDominated_eq]
    have hfin : ∀ (s1 : Slv P C) (r : Except Stop Unit), LogHas (R (d + 1)) s1 → wp env (do
        logRoutineEnd
        ofExcept r : M P C Unit) (fun _ => LogHas (R d)) (fun _ => LogHas Rend) { s1 with front := s1.front ++ [nd] } := by
      intro s1 r h1
      rw [wp_bind]
      refine wp_mono (LogHas.event (R'' := Rend) (s := { s1 with front := s1.front ++ [nd] }) h1 (fun _ => L.finish)
        fun _ => L.halt) ?_ (fun _ _ h => h)
      intro _ s2 h2
      cases r
      · exact h2.mono fun _ => L.halt
      · exact h2
    refine wp_mono (h.charge (k := .points) (R'' := R (d + 1)) (fun _ => L.point nd) (fun _ h => h) (fun _ h => h)) ?_ ?_
    · exact fun _ s1 h1 => hfin s1 _ h1
    · exact fun e s1 h1 => by cases e <;> first | exact h1.mono (fun _ => L.halt) | exact hfin s1 _ h1

/-! ## The fences -/

theorem fences_append (a b : List LogEvent) : fences (a ++ b) = fences a ++ fences b := List.filterMap_append ..

/-- Apart from updates of the fence, no fence is logged. -/
theorem fencesPred (T : List (List Nat) → Prop) : LogPred (fun _ l => T (fences l)) (fun l => T (fences l)) := by
  refine ⟨fun h => h, ?_, ?_, ?_, ?_, ?_, ?_, ?_⟩ <;> intros <;> rw [fences_append] <;> simpa [fences]

/-- The fences in the log, if there is one, are the same. -/
def FKeep (s s' : Slv P C) : Prop :=
  LogHas (fun l => ∀ T : List (List Nat) → Prop, LogHas (fun l => T (fences l)) s → T (fences l)) s'

theorem FKeep.refl (s : Slv P C) : FKeep s s := fun l hl _ h => h l hl

theorem FKeep.of_io {s s' : Slv P C} (h : s'.io = s.io) : FKeep s s' := fun l hl _ hT => hT l (by rw [← h]; exact hl)

theorem FKeep.get {s s' : Slv P C} (h : FKeep s s') {T : List (List Nat) → Prop} (hT : LogHas (fun l => T (fences l)) s) :
    LogHas (fun l => T (fences l)) s' := fun l hl => h l hl T hT

theorem FKeep.trans {s s' s'' : Slv P C} (h : FKeep s s') (h' : FKeep s' s'') : FKeep s s'' :=
  fun l hl T hT => h'.get (h.get hT) l hl

/-! ## Points and fences -/

theorem points_append (a b : List LogEvent) : points (a ++ b) = points a ++ points b := List.filterMap_append ..

/-- The log only grew, by messages that are no fences. -/
def OKeepC (s s' : Slv P C) : Prop :=
  LogHas (fun l' => ∃ l es, s.io.logger = some l ∧ l' = l ++ es ∧ fences es = []) s'

/-- In addition the points that were found are in the log. -/
def OKeep (s s' : Slv P C) : Prop :=
  LogHas (fun l' => ∃ l es, s.io.logger = some l ∧ l' = l ++ es ∧ fences es = [] ∧
    ∀ p ∈ s'.front, p ∈ s.front ∨ p ∈ points es) s'

/-- What is left of it when a computation stops. -/
def OStop (s : Slv P C) (e : Stop) (s' : Slv P C) : Prop := OKeepC s s' ∧ (e ≠ .error → OKeep s s')

theorem OKeep.weak {s s' : Slv P C} (h : OKeep s s') : OKeepC s s' :=
  LogHas.mono h fun _ ⟨l, es, h1, h2, h3, _⟩ => ⟨l, es, h1, h2, h3⟩

theorem OKeep.stop {s s' : Slv P C} (h : OKeep s s') (e : Stop) : OStop s e s' := ⟨h.weak, fun _ => h⟩

theorem OKeep.of_io {s s' : Slv P C} (h : s'.io = s.io) (hf : s'.front = s.front) : OKeep s s' := fun l hl =>
  ⟨l, [], by rw [← h]; exact hl, by simp, rfl, fun p hp => .inl (by rw [← hf]; exact hp)⟩

theorem OKeep.refl (s : Slv P C) : OKeep s s := .of_io rfl rfl

theorem OKeep.transC {s s' s'' : Slv P C} (h : OKeep s s') (h' : OKeepC s' s'') : OKeepC s s'' := by
  intro l hl
  obtain ⟨l1, es1, h1, rfl, h3⟩ := h' l hl
  obtain ⟨l2, es2, h4, rfl, h5, -⟩ := h l1 h1
  exact ⟨l2, es2 ++ es1, h4, by simp, by rw [fences_append, h3, h5]; rfl⟩

theorem OKeep.trans {s s' s'' : Slv P C} (h : OKeep s s') (h' : OKeep s' s'') : OKeep s s'' := by
  intro l hl
  obtain ⟨l1, es1, h1, rfl, h3, h3'⟩ := h' l hl
  obtain ⟨l2, es2, h4, rfl, h5, h6⟩ := h l1 h1
  refine ⟨l2, es2 ++ es1, h4, by simp, by rw [fences_append, h3, h5]; rfl, fun p hp => ?_⟩
  rw [points_append, List.mem_append]
  rcases h3' p hp with h | h
  · rcases h6 p h with h | h
    · exact .inl h
    · exact .inr (.inl h)
  · exact .inr (.inr h)

theorem OKeep.transS {s s' s'' : Slv P C} {e : Stop} (h : OKeep s s') (h' : OStop s' e s'') : OStop s e s'' :=
  ⟨h.transC h'.1, fun he => h.trans (h'.2 he)⟩

theorem OKeepC.fences {s s' : Slv P C} (h : OKeepC s s') : FKeep s s' := by
  intro l hl T hT
  obtain ⟨l1, es, h1, rfl, h3⟩ := h l hl
  rw [fences_append, h3, List.append_nil]
  exact hT l1 h1

theorem OKeep.fences {s s' : Slv P C} (h : OKeep s s') : FKeep s s' := h.weak.fences

theorem OKeep.logged {s0 s s' : Slv P C} {ev : LogEvent} (h : OKeep s0 s) (hl : Logged ev s s') (hf : s'.front = s.front)
    (he : ∀ b, ev ≠ .fence b) : OKeep s0 s' := by
  refine LogHas.logged h hl fun l => ?_
  rintro ⟨l1, es, h1, rfl, h3, h4⟩
  refine ⟨l1, es ++ [ev], h1, by simp, ?_, fun p hp => ?_⟩
  · rw [fences_append, h3]
    cases ev <;> first | exact absurd rfl (he _) | rfl
  · rw [points_append, List.mem_append]
    rw [hf] at hp
    exact (h4 p hp).imp id .inl

theorem OKeep.same {s0 s s' : Slv P C} (h : OKeep s0 s) (hl : s'.io.logger = s.io.logger) (hf : s'.front = s.front) :
    OKeep s0 s' := by
  unfold OKeep
  rw [hf]
  exact LogHas.congr h hl

theorem OKeep.event {s0 s : Slv P C} {ev : LogEvent} (h : OKeep s0 s) (he : ∀ b, ev ≠ .fence b) :
    wp env (logEvent ev) (fun _ => OKeep s0) (OStop s0) s :=
  wpio_logEvent (fun _ hf _ _ _ _ hl => h.logged hl hf he) (fun _ hf _ _ _ _ hl _ => (h.same hl hf).stop _)

theorem OKeep.charge {s0 s : Slv P C} {k : Limited} {ev : LogEvent} (h : OKeep s0 s) (he : ∀ b, ev ≠ .fence b) :
    wp env (Scuttle.charge k ev) (fun _ => OKeep s0) (fun _ => OKeep s0) s :=
  wpio_charge (fun _ hc hl _ => h.logged hl hc.front he) (fun _ hc hl _ _ => h.same hl hc.front)
    (fun _ hc hl _ => h.logged hl hc.front he) (fun _ hc hl _ _ => h.logged hl hc.front he)

/-- A point is logged and collected: it is in the log, unless logging failed. -/
theorem OKeep.collect {s0 s : Slv P C} (h : OKeep s0 s) (nd : NonDomPoint Assignment) {Q : Unit → Slv P C → Prop}
    {F : Except Stop Unit → M P C Unit}
    (hQ : ∀ r s', (∀ e, r = .error e → e = .error → OKeepC s0 s') → (r ≠ .error .error → OKeep s0 s') →
      wp env (F r) Q (OStop s0) s') :
    wp env (do
      let r ← attempt (logNonDominated nd)
      Scuttle.collect nd
      F r) Q (OStop s0) s := by
  have hyes : ∀ s', Logged (.nonDominated nd) s s' → s'.front = s.front →
      OKeep s0 { s' with front := s'.front ++ [nd] } := by
    intro s' hl hf
    refine LogHas.logged (s' := { s' with front := s'.front ++ [nd] }) h hl fun l => ?_
    rintro ⟨l1, es, h1, rfl, h3, h4⟩
    refine ⟨l1, es ++ [.nonDominated nd], h1, by simp, by rw [fences_append, h3]; rfl, fun p hp => ?_⟩
    rw [points_append, List.mem_append]
    simp only [List.mem_append, List.mem_singleton] at hp
    rcases hp with hp | rfl
    · rw [hf] at hp
      exact (h4 p hp).imp id .inl
    · exact .inr (.inr (by simp [points]))
  rw [wp_bind]
  refine wp_attempt ?_
  rw [logNonDominated_eq]
  refine wpio_charge (fun s' hc hl _ => ?_) (fun s' hc hl _ _ => ?_) (fun s' hc hl _ => ?_) (fun s' hc hl _ _ => ?_)
  · rw [wp_bind]
    exact hQ _ _ (fun e he => by cases he) fun _ => hyes s' hl hc.front
  · dsimp only
    rw [wp_bind]
    exact hQ _ _ (fun e _ _ => LogHas.congr (s' := { s' with front := s'.front ++ [nd] }) h.weak hl) fun he => absurd rfl he
  · dsimp only
    rw [wp_bind]
    refine hQ _ _ (fun e he h2 => ?_) fun _ => hyes s' hl hc.front
    rw [h2, Except.error.injEq] at he
    cases he
  · exact (h.logged hl hc.front (by simp)).stop _

/-- Apart from updates of the fence, the points found are in the log. -/
theorem okeepCore (env : Env) (s0 : Slv P C) :
    IoCore (P := P) (C := C) env (fun _ _ _ => OKeep s0) (OStop s0) where
  frame := fun h hf h' => h'.same (by rw [h]) hf
  called := fun h => h
  halt := fun e _ h => h.stop e
  start := fun x s h => h.event (by simp)
  finish := fun s h => h.event (by simp)
  heur := fun i a b s h => h.event (by simp)
  check := fun s h => wpio_check fun s' hs' => by
    subst hs'
    exact ⟨fun _ => h.same rfl rfl, fun _ => (h.same rfl rfl).stop _⟩
  cand := fun costs ph s h => by
    unfold logCandidate
    rw [wp_bind, wp_getS, wp_bind, wp_dbg_iff]
    split
    · exact h.stop _
    · exact wp_mono (h.charge (k := .candidates) (by simp)) (fun _ _ h => h) (fun e _ h => h.stop e)
  call := fun {d p c} a s h => by
    unfold solveAssumps
    rw [wp_bind]
    refine wp_mono (h.event (by simp)) ?_ (fun _ _ h => h)
    intro _ s1 h1
    rw [wp_bind]
    refine wpio_oracleSolve fun r s2 b1 b2 => ?_
    have h2 : OKeep s0 s2 := h1.same (by rw [b2]) b1
    rw [wp_bind]
    refine wp_mono (h2.event (by simp)) ?_ (fun _ _ h => h)
    intro _ s3 h3
    rw [wp_bind]
    refine wpio_check fun s4 hs4 => ?_
    have h4 : OKeep s0 s4 := by subst hs4; exact h3.same rfl rfl
    refine ⟨fun _ => ?_, fun _ => h4.stop _⟩
    rw [wp_bind, logOracleCall_eq]
    exact wp_mono (h4.charge (by simp)) (fun _ _ h => h) (fun e _ h => h.stop e)
  sol := fun {d p c} nd _ s h => by
    refine wp_attempt ?_
    rw [logSolution_eq]
    have hpt : ∀ (s1 : Slv P C) (e : Stop), OKeep s0 s1 → wp env (do
        let ndTerm ← attempt (logNonDominated nd)
        Scuttle.collect nd
        ofExcept ndTerm
        stop e : M P C Unit) (fun _ _ => True) (OStop s0) s1 := by
      intro s1 e h1
      refine h1.collect nd fun r s2 h2 h3 => ?_
      cases r with
      | ok a => exact (h3 (by simp)).stop _
      | error e' =>
        by_cases he : e' = .error
        · subst he
          exact ⟨h2 _ rfl rfl, fun h => absurd rfl h⟩
        · exact (h3 (by simpa using he)).stop _
    refine wp_mono (h.charge (k := .solutions) (by simp)) ?_ ?_
    · exact fun _ s1 h1 => h1
    · exact fun e s1 h1 => by cases e <;> first | exact h1.stop _ | exact hpt s1 _ h1
  point := fun {d p c} nd _ s h => by
    refine h.collect nd (F := fun r => do logRoutineEnd; ofExcept r) fun r s1 h1 h2 => ?_
    rw [wp_bind]
    by_cases hr : r = .error .error
    · subst hr
      have h3 := h1 _ rfl rfl
      refine wpio_logEvent (fun s2 _ _ _ _ _ hl => ⟨LogHas.logged h3 hl ?_, fun h => absurd rfl h⟩)
        (fun s2 _ _ _ _ _ hl _ => ⟨LogHas.congr h3 hl, fun h => absurd rfl h⟩)
      rintro l ⟨l1, es, e1, rfl, e3⟩
      exact ⟨l1, es ++ [.routineEnd], e1, by simp, by rw [fences_append, e3]; rfl⟩
    · refine wp_mono ((h2 hr).event (by simp)) (fun _ s2 h3 => ?_) (fun _ _ h => h)
      cases r with
      | ok => exact h3
      | error e => exact h3.stop _

theorem okeep_logEvent (e : LogEvent) (he : ∀ b, e ≠ .fence b) :
    wp env (logEvent e) (fun _ => OKeep s) (OStop s) s := (OKeep.refl s).event he

variable [UbEnc P] [UbEnc C]

theorem okeep_solveAssumps (a : List Lit) : wp env (solveAssumps a) (fun _ => OKeep s) (OStop s) s :=
  (okeepCore env s).call (d := 0) (p := 0) (c := true) a s (OKeep.refl s)

theorem okeep_harvest (fuel : Nat) (base : List Lit) :
    wp env (harvest fuel base) (fun _ => OKeep s) (OStop s) s :=
  (okeepCore env s).harvest (d := 0) (c := true) fuel base s (OKeep.refl s)

end Scuttle
