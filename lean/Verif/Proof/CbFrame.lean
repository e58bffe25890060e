import Verif.Proof.IoLog
import Verif.Proof.LogPred
import Verif.Model.CoreBoost

/-!
# What core boosting leaves alone

Core boosting does not touch the front or the number of calls to `solve`, and its log has no end without a start.
-/

set_option linter.unusedSectionVars false

namespace Scuttle

open Spec

variable {P C D α β : Type} [UbEnc P] [UbEnc C] [TotDb D] [MergeEnc P C D] {env : Env}
variable {f0 : ParetoFront Assignment} {n0 : Nat} {lg : Bool} {nl : Prop} {fs : List (List Nat)} {is : Option (List (List Nat))}

theorem fences_snoc {e : LogEvent} (he : ∀ b, e ≠ .fence b) (l : List LogEvent) : fences (l ++ [e]) = fences l := by
  rw [fences_append]
  cases e <;> first | exact absurd rfl (he _) | simp [fences]

theorem ideals_snoc {e : LogEvent} (he : ∀ b, e ≠ .ideal b) (l : List LogEvent) : ideals (l ++ [e]) = ideals l := by
  unfold ideals
  rw [List.filterMap_append]
  cases e <;> first | exact absurd rfl (he _) | simp

/-- Messages that say nothing about candidates. -/
def LogEvent.NoCost : LogEvent → Prop
  | .candidate .. => False
  | .heurImprovement .. => False
  | _ => True

theorem noCost_snoc {e : LogEvent} (he : e.NoCost) {l : List LogEvent} (h : ∀ e ∈ l, e.NoCost) : ∀ e' ∈ l ++ [e], e'.NoCost := by
  intro e' h'
  rcases List.mem_append.1 h' with h' | h'
  · exact h e' h'
  · rw [List.mem_singleton.1 h']; exact he

/-- The front, the number of calls to `solve`, and the number of routines that have not ended. -/
structure CbI (f0 : ParetoFront Assignment) (n0 : Nat) (lg : Bool) (nl : Prop) (fs : List (List Nat)) (is : Option (List (List Nat))) (d : Nat) (s : Slv P C) : Prop where
  front : s.front = f0
  calls : s.io.stats.nSolveCalls = n0
  log : ∀ l, s.io.logger = some l → Opened d l ∧ fences l = fs ∧ (∀ x ∈ is, ideals l = x) ∧ ∀ e ∈ l, e.NoCost
  has : s.io.logger.isSome = lg
  lims : nl → s.io.lims = Limits.none

/-- A computation that ends all routines it starts, unless it stops early. -/
def CbKeeps (env : Env) (f0 : ParetoFront Assignment) (n0 : Nat) (lg : Bool) (nl : Prop) (fs : List (List Nat)) (is : Option (List (List Nat))) (c : M P C α) : Prop :=
  ∀ d s, CbI f0 n0 lg nl fs is d s → wp env c (fun _ => CbI f0 n0 lg nl fs is d) (fun _ s => ∃ d, CbI f0 n0 lg nl fs is d s) s

theorem cbk_pure (a : α) : CbKeeps (P := P) (C := C) env f0 n0 lg nl fs is (M.pure a) := fun _ _ h => h

theorem cbk_bind {c : M P C α} {f : α → M P C β} (hc : CbKeeps env f0 n0 lg nl fs is c) (hf : ∀ a, CbKeeps env f0 n0 lg nl fs is (f a)) :
    CbKeeps env f0 n0 lg nl fs is (c >>= f) := by
  intro d s h
  rw [wp_bind]
  exact wp_mono (hc d s h) (fun a s' h' => hf a d s' h') (fun _ _ h => h)

theorem cbk_getS : CbKeeps (P := P) (C := C) env f0 n0 lg nl fs is getS := fun _ _ h => h
theorem cbk_isDebug : CbKeeps (P := P) (C := C) env f0 n0 lg nl fs is isDebug := fun _ _ h => h
theorem cbk_stop (e : Stop) : CbKeeps (P := P) (C := C) (α := α) env f0 n0 lg nl fs is (stop e) := fun d _ h => ⟨d, h⟩

theorem cbk_modifyS {f : Slv P C → Slv P C} (h1 : ∀ s, (f s).front = s.front)
    (h2 : ∀ s, (f s).io.stats.nSolveCalls = s.io.stats.nSolveCalls) (h3 : ∀ s, (f s).io.logger = s.io.logger)
    (h4 : ∀ s, (f s).io.lims = s.io.lims := by exact fun _ => rfl) :
    CbKeeps env f0 n0 lg nl fs is (modifyS f) := by
  intro d s h
  rw [wp_modifyS]
  exact ⟨by rw [h1, h.front], by rw [h2, h.calls], by rw [h3]; exact h.log, by rw [h3]; exact h.has, by rw [h4]; exact h.lims⟩

theorem cbk_dbg (b : Bool) : CbKeeps (P := P) (C := C) env f0 n0 lg nl fs is (dbg b) := by
  intro d s h
  rw [wp_dbg_iff]
  split
  · exact ⟨d, h⟩
  · exact h

theorem cbk_unwrap (o : Option α) : CbKeeps (P := P) (C := C) env f0 n0 lg nl fs is (unwrap o) := by
  cases o with
  | none => exact cbk_stop _
  | some a => exact cbk_pure a

theorem cbk_check : CbKeeps (P := P) (C := C) env f0 n0 lg nl fs is checkTermination := by
  intro d s h
  refine wpio_check fun s' hs' => ?_
  subst hs'
  exact ⟨fun _ => ⟨h.front, h.calls, h.log, h.has, h.lims⟩, fun _ => ⟨d, h.front, h.calls, h.log, h.has, h.lims⟩⟩

/-- A message that is not about a routine. -/
theorem cbk_logEvent (e : LogEvent) (h1 : ∀ x, e ≠ .routineStart x) (h2 : e ≠ .routineEnd)
    (h3 : ∀ b, e ≠ .fence b) (h4 : ∀ x ∈ is, ∀ b, e ≠ .ideal b) (h5 : e.NoCost) :
    CbKeeps (P := P) (C := C) env f0 n0 lg nl fs is (logEvent e) := by
  intro d s h
  refine wpio_logEvent (fun s' a1 _ _ a4 a5 a6 => ⟨by rw [a1, h.front], by rw [a4, h.calls], fun l hl => ?_,
      by rw [a6, Option.isSome_map]; exact h.has, by rw [a5]; exact h.lims⟩)
    (fun s' a1 _ _ a4 a5 a6 _ => ⟨d, by rw [a1, h.front], by rw [a4, h.calls], by rw [a6]; exact h.log, by rw [a6]; exact h.has, by rw [a5]; exact h.lims⟩)
  rw [a6] at hl
  cases hs : s.io.logger with
  | none => rw [hs] at hl; simp at hl
  | some l' =>
    rw [hs] at hl
    simp only [Option.map_some, Option.some.injEq] at hl
    subst hl
    exact ⟨(h.log l' hs).1.append (.other e h1 h2), by rw [fences_snoc h3]; exact (h.log l' hs).2.1,
      fun x hx => by rw [ideals_snoc (h4 x hx)]; exact (h.log l' hs).2.2.1 x hx, noCost_snoc h5 (h.log l' hs).2.2.2⟩

theorem wp_cbStart {s : Slv P C} {d : Nat} (x : String) (h : CbI f0 n0 lg nl fs is d s) :
    wp env (logRoutineStart x) (fun _ => CbI f0 n0 lg nl fs is (d + 1)) (fun _ s => ∃ d, CbI f0 n0 lg nl fs is d s) s := by
  refine wpio_logEvent (fun s' a1 _ _ a4 a5 a6 => ⟨by rw [a1, h.front], by rw [a4, h.calls], fun l hl => ?_,
      by rw [a6, Option.isSome_map]; exact h.has, by rw [a5]; exact h.lims⟩)
    (fun s' a1 _ _ a4 a5 a6 _ => ⟨d, by rw [a1, h.front], by rw [a4, h.calls], by rw [a6]; exact h.log, by rw [a6]; exact h.has, by rw [a5]; exact h.lims⟩)
  rw [a6] at hl
  cases hs : s.io.logger with
  | none => rw [hs] at hl; simp at hl
  | some l' =>
    rw [hs] at hl
    simp only [Option.map_some, Option.some.injEq] at hl
    subst hl
    exact ⟨(h.log l' hs).1.start x, by rw [fences_snoc (by simp)]; exact (h.log l' hs).2.1,
      by rw [ideals_snoc (by simp)]; exact (h.log l' hs).2.2.1, noCost_snoc (by trivial) (h.log l' hs).2.2.2⟩

theorem wp_cbEnd {s : Slv P C} {d : Nat} (h : CbI f0 n0 lg nl fs is (d + 1) s) :
    wp env logRoutineEnd (fun _ => CbI f0 n0 lg nl fs is d) (fun _ s => ∃ d, CbI f0 n0 lg nl fs is d s) s := by
  refine wpio_logEvent (fun s' a1 _ _ a4 a5 a6 => ⟨by rw [a1, h.front], by rw [a4, h.calls], fun l hl => ?_,
      by rw [a6, Option.isSome_map]; exact h.has, by rw [a5]; exact h.lims⟩)
    (fun s' a1 _ _ a4 a5 a6 _ => ⟨d + 1, by rw [a1, h.front], by rw [a4, h.calls], by rw [a6]; exact h.log, by rw [a6]; exact h.has, by rw [a5]; exact h.lims⟩)
  rw [a6] at hl
  cases hs : s.io.logger with
  | none => rw [hs] at hl; simp at hl
  | some l' =>
    rw [hs] at hl
    simp only [Option.map_some, Option.some.injEq] at hl
    subst hl
    exact ⟨(h.log l' hs).1.finish, by rw [fences_snoc (by simp)]; exact (h.log l' hs).2.1,
      by rw [ideals_snoc (by simp)]; exact (h.log l' hs).2.2.1, noCost_snoc (by trivial) (h.log l' hs).2.2.2⟩

/-- A routine around a computation. -/
theorem cbk_routine {c : M P C α} {f : α → M P C β} (x : String) (hc : CbKeeps env f0 n0 lg nl fs is c)
    (hf : ∀ a, CbKeeps env f0 n0 lg nl fs is (f a)) :
    CbKeeps env f0 n0 lg nl fs is (do logRoutineStart x; let a ← c; logRoutineEnd; f a) := by
  intro d s h
  rw [wp_bind]
  refine wp_mono (wp_cbStart x h) (fun _ s1 h1 => ?_) (fun _ _ h => h)
  rw [wp_bind]
  refine wp_mono (hc _ s1 h1) (fun a s2 h2 => ?_) (fun _ _ h => h)
  rw [wp_bind]
  exact wp_mono (wp_cbEnd h2) (fun _ s3 h3 => hf a _ s3 h3) (fun _ _ h => h)

theorem cbk_oracleSolve (as : List Lit) : CbKeeps (P := P) (C := C) env f0 n0 lg nl fs is (oracleSolve as) := by
  intro d s h
  refine wpio_oracleSolve fun r s' h1 h2 => ⟨by rw [h1, h.front], by rw [h2]; exact h.calls, by rw [h2]; exact h.log, by rw [h2]; exact h.has, by rw [h2]; exact h.lims⟩

theorem cbk_logOracleCall (r : SolverResult) : CbKeeps (P := P) (C := C) env f0 n0 lg nl fs is (logOracleCall r) := by
  intro d s h
  rw [logOracleCall_eq]
  have hlim : ∀ s' b, Charged .oracleCalls s s' →
      Down env.debug (Limited.oracleCalls.limit s.io.lims) (Limited.oracleCalls.limit s'.io.lims) b ∨
        Limited.oracleCalls.limit s'.io.lims = Limited.oracleCalls.limit s.io.lims →
      nl → s'.io.lims = Limits.none := by
    intro s' b hc hd hn
    have h0 := h.lims hn
    have h1 := (hc.others .points (by simp)).2
    have h2 := (hc.others .solutions (by simp)).2
    have h3 := (hc.others .candidates (by simp)).2
    rw [h0] at h1 h2 h3 hd
    simp only [Limited.limit, Limits.none] at h1 h2 h3 hd
    have h4 : s'.io.lims.oracleCalls = none := by
      rcases hd with hd | hd
      · cases hg : s'.io.lims.oracleCalls with
        | none => rfl
        | some x => rw [hg] at hd; cases hd
      · exact hd
    cases hl : s'.io.lims with
    | mk a b c e =>
      rw [hl] at h1 h2 h3 h4
      simp only at h1 h2 h3 h4
      rw [h1, h2, h3, h4]
      rfl
  have key : ∀ s', (nl → s'.io.lims = Limits.none) → Charged .oracleCalls s s' → Logged (.oracleCall r) s s' →
      CbI f0 n0 lg nl fs is d s' := by
    intro s' hnl hc hl
    refine ⟨by rw [hc.front, h.front], by rw [hc.solveCalls, h.calls], fun l hl' => ?_, by
      unfold Logged at hl; rw [hl, Option.isSome_map]; exact h.has, hnl⟩
    unfold Logged at hl
    rw [hl] at hl'
    cases hs : s.io.logger with
    | none => rw [hs] at hl'; simp at hl'
    | some l' =>
      rw [hs] at hl'
      simp only [Option.map_some, Option.some.injEq] at hl'
      subst hl'
      exact ⟨(h.log l' hs).1.append (.other _ (by simp) (by simp)), by rw [fences_snoc (by simp)]; exact (h.log l' hs).2.1,
      by rw [ideals_snoc (by simp)]; exact (h.log l' hs).2.2.1, noCost_snoc (by trivial) (h.log l' hs).2.2.2⟩
  refine wpio_charge (fun s' hc hl hd => key s' (hlim s' _ hc (.inl hd)) hc hl) (fun s' hc hl hd _ => ⟨d, ?_⟩)
    (fun s' hc hl hd => ⟨d, key s' (hlim s' _ hc (.inl hd)) hc hl⟩)
    (fun s' hc hl _ hd => ⟨d, key s' (fun hn => by rw [h.lims hn] at hd; cases hd) hc hl⟩)
  exact ⟨by rw [hc.front, h.front], by rw [hc.solveCalls, h.calls], by rw [hl]; exact h.log, by rw [hl]; exact h.has,
    hlim s' true hc (.inr hd)⟩

theorem cbk_solveAssumps (as : List Lit) : CbKeeps (P := P) (C := C) env f0 n0 lg nl fs is (solveAssumps as) :=
  cbk_routine _ (cbk_oracleSolve as) fun _ => cbk_bind cbk_check fun _ =>
    cbk_bind (cbk_logOracleCall _) fun _ => cbk_pure _

theorem cbk_oracleCore : CbKeeps (P := P) (C := C) env f0 n0 lg nl fs is oracleCore := by
  refine cbk_bind cbk_getS fun s => ?_
  split
  · exact cbk_pure _
  · exact cbk_stop _

theorem cbk_oracleSolution : CbKeeps (P := P) (C := C) env f0 n0 lg nl fs is oracleSolution := by
  refine cbk_bind cbk_getS fun s => cbk_bind (cbk_unwrap _) fun v => ?_
  split
  · exact cbk_pure _
  · exact cbk_stop _

theorem cbk_loop {body : α → M P C (α ⊕ β)} (hb : ∀ a, CbKeeps env f0 n0 lg nl fs is (body a)) (fuel : Nat) (a : α) :
    CbKeeps env f0 n0 lg nl fs is (loopM body fuel a) := by
  intro d s h
  refine wp_loop_inv (fun _ => CbI f0 n0 lg nl fs is d) fuel body a (fun a s h => ?_) (fun _ _ h => ⟨d, h⟩) h
  refine wp_mono (hb a d s h) (fun r s' h' => ?_) (fun _ _ h => h)
  cases r <;> exact h'

/-! ## Core-guided search -/

theorem cbk_insert (i : Inactives) (l : Lit) (w : Nat) : CbKeeps (P := P) (C := C) env f0 n0 lg nl fs is (i.insert l w) := by
  cases i with
  | weighted m => exact cbk_pure _
  | unweighted lits active => exact cbk_bind (cbk_dbg _) fun _ => cbk_pure _
  | constant => exact cbk_stop _

theorem cbk_relax (i : Inactives) (l : Lit) (w : Nat) : CbKeeps (P := P) (C := C) env f0 n0 lg nl fs is (i.relax l w) := by
  cases i with
  | weighted m =>
    unfold Inactives.relax
    simp only
    split
    · split
      · exact cbk_stop _
      · exact cbk_pure _
    · exact cbk_stop _
  | unweighted lits active => exact cbk_bind (cbk_dbg _) fun _ => cbk_pure _
  | constant => exact cbk_stop _

theorem cbk_ollPrepare (i : Inactives) (rest : List Lit) : CbKeeps (P := P) (C := C) env f0 n0 lg nl fs is (ollPrepare i rest) := by
  cases i with
  | weighted m => exact cbk_bind (cbk_unwrap _) fun _ => cbk_pure _
  | unweighted lits active => exact cbk_pure _
  | constant => exact cbk_stop _

theorem cbk_setConflLimit (b : Bool) : CbKeeps (P := P) (C := C) env f0 n0 lg nl fs is (setConflLimit b) :=
  cbk_modifyS (fun _ => rfl) (fun _ => rfl) (fun _ => rfl)

theorem cbk_buildOutput (d : D) (root oidx : Nat) : CbKeeps (P := P) (C := C) env f0 n0 lg nl fs is (buildOutput d root oidx) :=
  cbk_bind cbk_getS fun _ => cbk_bind (cbk_modifyS (fun _ => rfl) (fun _ => rfl) (fun _ => rfl)) fun _ =>
    cbk_pure _

theorem cbk_exhaustLoop (root : Nat) (base : List Lit) (g bound : Nat) (olit : Lit) (d : D) :
    CbKeeps (P := P) (C := C) env f0 n0 lg nl fs is (exhaustLoop root base g bound olit d) := by
  induction g generalizing bound olit d with
  | zero => exact cbk_pure _
  | succ g ih =>
    refine cbk_bind (cbk_buildOutput _ _ _) fun p => ?_
    obtain ⟨olit', d'⟩ := p
    refine cbk_bind (cbk_setConflLimit _) fun _ => cbk_bind (cbk_solveAssumps _) fun r => ?_
    split
    · exact cbk_pure _
    · exact ih _ _ _

theorem cbk_exhaustCore (root : Nat) (base : List Lit) (d : D) :
    CbKeeps (P := P) (C := C) env f0 n0 lg nl fs is (exhaustCore root base d) := by
  refine cbk_bind cbk_getS fun s => ?_
  split
  · refine cbk_bind (cbk_buildOutput _ _ _) fun p => ?_
    exact cbk_pure _
  · intro k s h
    rw [wp_bind]
    refine wp_mono (wp_cbStart _ h) (fun _ s1 h1 => ?_) (fun _ _ h => h)
    rw [wp_bind]
    refine wp_mono (cbk_dbg _ _ s1 h1) (fun _ s2 h2 => ?_) (fun _ _ h => h)
    rw [wp_bind]
    refine wp_mono (cbk_exhaustLoop _ _ _ _ _ _ _ s2 h2) (fun r s3 h3 => ?_) (fun _ _ h => h)
    rw [wp_bind]
    refine wp_mono (cbk_setConflLimit _ _ s3 h3) (fun _ s4 h4 => ?_) (fun _ _ h => h)
    rw [wp_bind]
    exact wp_mono (wp_cbEnd h4) (fun _ s5 h5 => h5) (fun _ _ h => h)

theorem cbk_minimizeLoop (base xs core : List Lit) : CbKeeps (P := P) (C := C) env f0 n0 lg nl fs is (minimizeLoop base xs core) := by
  induction xs generalizing core with
  | nil => exact cbk_pure _
  | cons x xs ih =>
    refine cbk_bind (cbk_solveAssumps _) fun r => ?_
    split
    · exact cbk_bind cbk_oracleCore fun c => ih _
    · exact ih _

theorem cbk_minimizeCore (core base : List Lit) : CbKeeps (P := P) (C := C) env f0 n0 lg nl fs is (minimizeCore core base) := by
  refine cbk_bind cbk_getS fun s => ?_
  split
  · exact cbk_pure _
  · split
    · exact cbk_pure _
    · intro k s h
      rw [wp_bind]
      refine wp_mono (wp_cbStart _ h) (fun _ s1 h1 => ?_) (fun _ _ h => h)
      rw [wp_bind]
      refine wp_mono (cbk_setConflLimit _ _ s1 h1) (fun _ s2 h2 => ?_) (fun _ _ h => h)
      rw [wp_bind]
      refine wp_mono (cbk_minimizeLoop _ _ _ _ s2 h2) (fun r s3 h3 => ?_) (fun _ _ h => h)
      rw [wp_bind]
      refine wp_mono (cbk_setConflLimit _ _ s3 h3) (fun _ s4 h4 => ?_) (fun _ _ h => h)
      rw [wp_bind]
      exact wp_mono (wp_cbEnd h4) (fun _ s5 h5 => h5) (fun _ _ h => h)

theorem cbk_trimCore (fuel : Nat) (core base : List Lit) :
    CbKeeps (P := P) (C := C) env f0 n0 lg nl fs is (trimCore fuel core base) := by
  refine cbk_bind cbk_getS fun s => ?_
  split
  · exact cbk_pure _
  · split
    · exact cbk_pure _
    · refine cbk_routine _ (cbk_loop (fun c => ?_) _ _) fun _ => cbk_pure _
      unfold trimBody
      split
      · refine cbk_bind (cbk_solveAssumps _) fun r => cbk_bind (cbk_dbg _) fun _ =>
          cbk_bind cbk_oracleCore fun c => ?_
        simp only
        split <;> exact cbk_pure _
      · exact cbk_pure _

theorem cbk_relaxLit (cw : Nat) (st : RelaxState D) (olit : Lit) :
    CbKeeps (P := P) (C := C) env f0 n0 lg nl fs is (relaxLit cw st olit) := by
  refine cbk_bind (cbk_relax _ _ _) fun p => ?_
  obtain ⟨i, w⟩ := p
  simp only
  split
  · split
    · exact cbk_pure _
    · split
      · exact cbk_pure _
      · refine cbk_bind (cbk_buildOutput _ _ _) fun q => ?_
        obtain ⟨new, db⟩ := q
        exact cbk_bind (cbk_insert _ _ _) fun _ => cbk_pure _
  · exact cbk_pure _

theorem cbk_relaxLoop (cw : Nat) (ls : List Lit) (st : RelaxState D) :
    CbKeeps (P := P) (C := C) env f0 n0 lg nl fs is (relaxLoop cw ls st) := by
  induction ls generalizing st with
  | nil => exact cbk_pure _
  | cons l ls ih => exact cbk_bind (cbk_relaxLit _ _ _) fun st => ih st

theorem cbk_handleCore (fuel : Nat) (base : List Lit) (st : OllState D) (core : List Lit) :
    CbKeeps (P := P) (C := C) env f0 n0 lg nl fs is (handleCore fuel base st core) := by
  refine cbk_bind (cbk_minimizeCore _ _) fun c => cbk_bind (cbk_trimCore _ _ _) fun c =>
    cbk_bind (cbk_unwrap _) fun cw => cbk_bind cbk_isDebug fun _ => cbk_bind (cbk_unwrap _) fun _ =>
    cbk_bind (cbk_logEvent _ (by simp) (by simp) (by simp) (by simp) (by trivial)) fun _ => cbk_bind (cbk_relaxLoop _ _ _) fun r =>
    cbk_bind (cbk_dbg _) fun _ => ?_
  simp only
  split <;> exact cbk_pure _

theorem cbk_reformCore (base : List Lit) (st : OllState D) (c : CoreData) :
    CbKeeps (P := P) (C := C) env f0 n0 lg nl fs is (reformCore base st c) := by
  refine cbk_bind (cbk_unwrap _) fun slice => ?_
  refine cbk_bind (cbk_exhaustCore _ _ _) fun p => ?_
  obtain ⟨olit, oidx, db⟩ := p
  refine cbk_bind ?_ fun offset => ?_
  · split
    · exact cbk_bind cbk_isDebug fun _ => cbk_bind (cbk_unwrap _) fun _ =>
        cbk_bind (cbk_logEvent _ (by simp) (by simp) (by simp) (by simp) (by trivial)) fun _ => cbk_pure _
    · exact cbk_pure _
  · simp only
    split
    · exact cbk_bind (cbk_insert _ _ _) fun _ => cbk_pure _
    · exact cbk_pure _

theorem cbk_reformCores (base : List Lit) (cs : List CoreData) (st : OllState D) :
    CbKeeps (P := P) (C := C) env f0 n0 lg nl fs is (reformCores base cs st) := by
  induction cs generalizing st with
  | nil => exact cbk_pure _
  | cons c cs ih => exact cbk_bind (cbk_reformCore _ _ _) fun st => ih st

theorem cbk_reserveOutputs (ps : List (Lit × ReformData)) (d : D) :
    CbKeeps (P := P) (C := C) env f0 n0 lg nl fs is (reserveOutputs ps d) := by
  induction ps generalizing d with
  | nil => exact cbk_pure _
  | cons p ps ih =>
    exact cbk_bind cbk_getS fun s => cbk_bind (cbk_modifyS (fun _ => rfl) (fun _ => rfl) (fun _ => rfl)) fun _ =>
      ih _

theorem cbk_oll (fuel : Nat) (reform : Reform) (base : List Lit) (d : D) (exactRef : Bool) :
    CbKeeps (P := P) (C := C) env f0 n0 lg nl fs is (oll fuel reform base d exactRef) := by
  unfold oll
  split
  · refine cbk_bind (cbk_solveAssumps _) fun r => ?_
    cases r with
    | sat => exact cbk_bind cbk_oracleSolution fun _ => cbk_pure _
    | unsat => exact cbk_pure _
    | interrupted => exact cbk_stop _
  · intro k s h
    rw [wp_bind]
    refine wp_mono (wp_cbStart _ h) (fun _ s1 h1 => ?_) (fun _ _ h => h)
    refine wp_loop_inv (fun _ => CbI f0 n0 lg nl fs is (k + 1)) fuel _ _ (fun st s h => ?_) (fun _ _ h => ⟨_, h⟩) h1
    unfold ollBody
    rw [wp_bind]
    refine wp_mono (cbk_ollPrepare _ _ _ s h) (fun p s2 h2 => ?_) (fun _ _ h => h)
    obtain ⟨i, rest⟩ := p
    simp only
    rw [wp_bind]
    refine wp_mono (cbk_solveAssumps _ _ s2 h2) (fun r s3 h3 => ?_) (fun _ _ h => h)
    cases r with
    | interrupted => exact ⟨_, h3⟩
    | sat =>
      simp only
      split
      · rw [wp_bind]
        refine wp_mono (cbk_oracleSolution _ s3 h3) (fun sol s4 h4 => ?_) (fun _ _ h => h)
        split
        · rw [wp_bind]
          refine wp_mono (cbk_reserveOutputs _ _ _ s4 h4) (fun db s5 h5 => ?_) (fun _ _ h => h)
          rw [wp_bind]
          exact wp_mono (wp_cbEnd h5) (fun _ s6 h6 => h6) (fun _ _ h => h)
        · rw [wp_bind, wp_pure, wp_bind]
          exact wp_mono (wp_cbEnd h4) (fun _ s6 h6 => h6) (fun _ _ h => h)
      · rw [wp_bind]
        exact wp_mono (cbk_reformCores _ _ _ _ s3 h3) (fun st s4 h4 => h4) (fun _ _ h => h)
    | unsat =>
      simp only
      rw [wp_bind]
      refine wp_mono (cbk_oracleCore _ s3 h3) (fun core s4 h4 => ?_) (fun _ _ h => h)
      split
      · rw [wp_bind]
        exact wp_mono (wp_cbEnd h4) (fun _ s6 h6 => h6) (fun _ _ h => h)
      · rw [wp_bind]
        exact wp_mono (cbk_handleCore _ _ _ _ _ s4 h4) (fun st s5 h5 => h5) (fun _ _ h => h)

/-! ## Core boosting -/

theorem cbk_mergeLoop (refs : List (Lit × ReformData)) (rebase : Bool) (ps : List (Lit × Nat)) (cons : List NodeCon)
    (d : D) : CbKeeps (P := P) (C := C) env f0 n0 lg nl fs is (mergeLoop refs rebase ps cons d) := by
  induction ps generalizing cons d with
  | nil => exact cbk_pure _
  | cons p ps ih =>
    refine cbk_bind ?_ fun q => ?_
    · unfold litCons
      split
      · refine cbk_bind (cbk_dbg _) fun _ => cbk_bind (cbk_dbg _) fun _ => ?_
        split
        · exact cbk_pure _
        · split <;> exact cbk_pure _
      · exact cbk_pure _
    · exact ih _ _

theorem cbk_mergeReform (reform : Reform) (d : D) (rebase : Bool) :
    CbKeeps (P := P) (C := C) env f0 n0 lg nl fs is (mergeReform reform d rebase) := by
  unfold mergeReform
  split
  · exact cbk_pure _
  · refine cbk_bind (cbk_mergeLoop _ _ _ _ _) fun p => ?_
    obtain ⟨cons, d⟩ := p
    unfold mergeCons
    simp only
    split
    · split
      · exact cbk_pure _
      · exact cbk_bind (cbk_dbg _) fun _ => cbk_pure _
    · exact cbk_pure _

theorem cbk_coreBoostLoop (fuel n i : Nat) (acc : List (Reform × D)) :
    CbKeeps (P := P) (C := C) env f0 n0 lg nl fs is (coreBoostLoop D fuel n i acc) := by
  induction n generalizing i acc with
  | zero => exact cbk_pure _
  | succ n ih =>
    refine cbk_bind cbk_getS fun s => cbk_bind (cbk_unwrap _) fun o => cbk_bind ?_ fun r => ?_
    · split
      · exact cbk_pure _
      · refine cbk_bind (cbk_oll _ _ _ _ _) fun r => ?_
        split <;> exact cbk_pure _
    · cases r with
      | none => exact cbk_pure _
      | some p => exact cbk_bind (cbk_modifyS (fun _ => rfl) (fun _ => rfl) (fun _ => rfl)) fun _ => ih _ _

theorem cbk_replaceEncs (rebase reset : Bool) (i : Nat) (rs : List (Reform × D)) :
    CbKeeps (P := P) (C := C) env f0 n0 lg nl fs is (replaceEncs rebase reset i rs) := by
  induction rs generalizing i with
  | nil => exact cbk_pure _
  | cons r rs ih =>
    obtain ⟨reform, d⟩ := r
    refine cbk_bind cbk_getS fun s => cbk_bind (cbk_unwrap _) fun o => ?_
    have hrest : CbKeeps (P := P) (C := C) env f0 n0 lg nl fs is (do checkTermination; replaceEncs rebase reset (i + 1) rs) :=
      cbk_bind cbk_check fun _ => ih _
    simp only
    split
    · exact cbk_bind (cbk_pure _) fun _ => hrest
    · exact cbk_bind (cbk_mergeReform _ _ _) fun e => cbk_bind cbk_getS fun _ => cbk_bind (cbk_unwrap _) fun _ =>
        cbk_bind (cbk_modifyS (fun _ => rfl) (fun _ => rfl) (fun _ => rfl)) fun _ => hrest

theorem cbk_resetOracle (b : Bool) : CbKeeps (P := P) (C := C) env f0 n0 lg nl fs is (resetOracle b) := by
  refine cbk_bind cbk_getS fun s => ?_
  split
  · intro k s' h
    rw [wp_bind]
    refine wp_mono (wp_cbStart _ h) (fun _ s1 h1 => ?_) (fun _ _ h => h)
    have key : ∀ (f : List Clause → Slv P C → Slv P C), (∀ c s, (f c s).front = s.front ∧ (f c s).io = s.io) →
        ∀ s2, CbI f0 n0 lg nl fs is (k + 1) s2 → wp env (do
        let cnf ← unwrap s.k.origCnf
        modifyS (f cnf)
        logRoutineEnd : M P C Unit) (fun _ => CbI f0 n0 lg nl fs is k) (fun _ s => ∃ d, CbI f0 n0 lg nl fs is d s) s2 := by
      intro f hf s2 h2
      rw [wp_bind]
      refine wp_mono (cbk_unwrap _ _ s2 h2) (fun cnf s3 h3 => ?_) (fun _ _ h => h)
      rw [wp_bind, wp_modifyS]
      exact wp_cbEnd ⟨by rw [(hf _ _).1, h3.front], by rw [(hf _ _).2, h3.calls], by rw [(hf _ _).2]; exact h3.log,
        by rw [(hf _ _).2]; exact h3.has, by rw [(hf _ _).2]; exact h3.lims⟩
    split
    · rw [wp_bind, wp_pure]
      refine key _ ?_ s1 h1
      exact fun _ _ => ⟨rfl, rfl⟩
    · rw [wp_bind]
      refine wp_mono (cbk_unwrap _ _ s1 h1) (fun _ s2 h2 => ?_) (fun _ _ h => h)
      rw [wp_bind, wp_pure]
      refine key _ ?_ s2 h2
      exact fun _ _ => ⟨rfl, rfl⟩
  · exact cbk_stop _

/-- What follows the core-guided search. -/
theorem cbk_afterBoost (cb : CbOptions) (res : List (Reform × D)) :
    CbKeeps (P := P) (C := C) env f0 n0 lg nl fs is (do
      checkTermination
      (if cb.after = .reset then do
        resetOracle true
        checkTermination
      else M.pure ())
      logRoutineStart "merge encodings"
      replaceEncs cb.rebase (cb.after = .reset) 0 res
      logRoutineEnd
      M.pure true) := by
  refine cbk_bind cbk_check fun _ => ?_
  have hrest : CbKeeps (P := P) (C := C) env f0 n0 lg nl fs is (do
      logRoutineStart "merge encodings"
      replaceEncs cb.rebase (cb.after = .reset) 0 res
      logRoutineEnd
      M.pure true) := cbk_routine _ (cbk_replaceEncs _ _ _ _) fun _ => cbk_pure _
  split
  · exact cbk_bind (cbk_bind (cbk_resetOracle _) fun _ => cbk_check) fun _ => hrest
  · exact cbk_bind (cbk_pure _) fun _ => hrest

theorem cbk_coreBoost (fuel : Nat) (cb : CbOptions) : CbKeeps (P := P) (C := C) env f0 n0 lg nl fs none (coreBoost D fuel cb) := by
  refine cbk_bind cbk_getS fun s => ?_
  split
  · exact cbk_stop _
  · refine cbk_bind ?_ fun r => ?_
    · intro k s h
      unfold kernelCoreBoost
      rw [wp_bind]
      refine wp_mono (wp_cbStart _ h) (fun _ s1 h1 => ?_) (fun _ _ h => h)
      rw [wp_bind, wp_getS, wp_bind]
      refine wp_mono (cbk_coreBoostLoop _ _ _ _ _ s1 h1) (fun r s2 h2 => ?_) (fun _ _ h => h)
      rw [wp_bind]
      refine wp_mono (wp_cbEnd h2) (fun _ s3 h3 => ?_) (fun _ _ h => h)
      rw [wp_bind]
      exact wp_mono (cbk_logEvent _ (by simp) (by simp) (by simp) (by simp) (by trivial) _ s3 h3) (fun _ s4 h4 => h4) (fun _ _ h => h)
    · cases r with
      | none => exact cbk_pure _
      | some res =>
        exact cbk_afterBoost cb res

end Scuttle
