import Verif.Model.Cli

/-!
# Errors of the logger are not lost

For C70: a computation either ends with an error, or it does the same as with a logger that does not fail. The exception is
the limit on the number of points, which can hide an error.
-/

set_option linter.unusedSectionVars false

namespace Scuttle

variable {P C α β : Type}

/-- The environment with a logger that does not fail. -/
def Env.safe (env : Env) : Env := { env with logOk := fun _ => true }

/-- Computations that report errors of the logger. -/
def Loud (c : M P C α) : Prop := ∀ env s, (c env s).1 = .error .error ∨
  s.io.lims.pps ≠ none ∧ ((c env s).1 = .error (.terminated .ppLimit) ∨ (c env s).1 = .error .panic) ∨
  c env s = c env.safe s ∧ (s.io.lims.pps = none → (c env s).2.io.lims.pps = none)

/-- Computations that do not use the logger. -/
theorem loud_same {c : M P C α} (h : ∀ env s, c env s = c env.safe s) (hp : ∀ env s, (c env s).2.io.lims = s.io.lims) : Loud c :=
  fun env s => .inr (.inr ⟨h env s, fun h0 => by rw [hp env s, h0]⟩)

theorem loud_pure (a : α) : Loud (P := P) (C := C) (M.pure a) := loud_same (fun _ _ => rfl) fun _ _ => rfl

theorem loud_stop (e : Stop) : Loud (P := P) (C := C) (α := α) (stop e) := loud_same (fun _ _ => rfl) fun _ _ => rfl

theorem loud_bind {c : M P C α} {f : α → M P C β} (hc : Loud c) (hf : ∀ a, Loud (f a)) : Loud (c >>= f) := by
  intro env s
  change (M.bind c f env s).1 = _ ∨ s.io.lims.pps ≠ none ∧ ((M.bind c f env s).1 = _ ∨ (M.bind c f env s).1 = _) ∨
    M.bind c f env s = M.bind c f env.safe s ∧ (_ → (M.bind c f env s).2.io.lims.pps = none)
  have h := hc env s
  unfold M.bind
  rcases hr : c env s with ⟨e | a, s'⟩
  · rw [hr] at h
    dsimp only at h ⊢
    rcases h with h | ⟨h0, h⟩ | ⟨h, h'⟩
    · exact .inl (by cases h; rfl)
    · refine .inr (.inl ⟨h0, ?_⟩)
      rcases h with h | h <;> cases h
      · exact .inl rfl
      · exact .inr rfl
    · refine .inr (.inr ⟨?_, h'⟩)
      rw [← h]
  · rw [hr] at h
    dsimp only at h ⊢
    rcases h with h | ⟨h0, h⟩ | ⟨h, h'⟩
    · cases h
    · rcases h with h | h <;> cases h
    · rw [← h]
      dsimp only
      rcases hf a env s' with h2 | ⟨h2, h3⟩ | ⟨h2, h3⟩
      · exact .inl h2
      · exact .inr (.inl ⟨fun h0 => h2 (h' h0), h3⟩)
      · exact .inr (.inr ⟨h2, fun h0 => h3 (h' h0)⟩)

theorem loud_getS {f : Slv P C → M P C α} (h : ∀ k io encs front fence, Loud (f ⟨k, io, encs, front, fence⟩)) :
    Loud (getS >>= f) :=
  loud_bind (loud_same (fun _ _ => rfl) fun _ _ => rfl) fun s => h s.k s.io s.encs s.front s.fence

theorem loud_ite {c : Prop} [Decidable c] {a b : M P C α} (h1 : c → Loud a) (h2 : ¬c → Loud b) : Loud (if c then a else b) := by
  split
  · exact h1 ‹_›
  · exact h2 ‹_›

theorem loud_isDebug : Loud (P := P) (C := C) isDebug := loud_same (fun _ _ => rfl) fun _ _ => rfl

theorem loud_hasTightening : Loud (P := P) (C := C) hasTightening := loud_same (fun _ _ => rfl) fun _ _ => rfl

theorem loud_modifyS {g : Slv P C → Slv P C} (h : ∀ s, (g s).io.lims = s.io.lims) : Loud (modifyS g) :=
  loud_same (fun _ _ => rfl) fun _ s => h s

theorem loud_dbg (b : Bool) : Loud (P := P) (C := C) (dbg b) :=
  loud_same (fun _ _ => rfl) fun _ _ => by unfold dbg; split <;> rfl

theorem loud_unwrap (o : Option α) : Loud (P := P) (C := C) (unwrap o) := by
  cases o
  · exact loud_stop _
  · exact loud_pure _

theorem loud_orErr (o : Option α) : Loud (P := P) (C := C) (orErr o) := by
  cases o
  · exact loud_stop _
  · exact loud_pure _

theorem loud_loop {b : α → M P C (α ⊕ β)} (h : ∀ a, Loud (b a)) : ∀ {n : Nat} (a : α), Loud (loopM b n a)
  | 0, _ => loud_stop _
  | n + 1, a => loud_bind (h a) fun r => (match r with
      | .inl a' => loud_loop h a'
      | .inr b => loud_pure b : Loud (match r with | .inl a' => loopM b n a' | .inr b => M.pure b))

theorem loud_logEvent (e : LogEvent) : Loud (P := P) (C := C) (logEvent e) := by
  intro env s
  unfold logEvent
  cases s.io.logger with
  | none => exact .inr (.inr ⟨rfl, id⟩)
  | some l =>
    dsimp only [Env.safe]
    cases env.logOk s.io.tick with
    | true => exact .inr (.inr ⟨rfl, id⟩)
    | false => exact .inl rfl

theorem countDown_none {debug : Bool} {o o' : Option Nat} {hit : Bool} (h : countDown debug o = some (o', hit)) (h0 : o = none) :
    o' = none := by
  subst h0
  cases h
  rfl

theorem loud_stepLimit {get : Limits → Option Nat} {set : Option Nat → Limits → Limits} {t : Termination}
    (h : ∀ l x, l.pps = none → (get l = none → x = none) → (set x l).pps = none) : Loud (P := P) (C := C) (stepLimit get set t) := by
  intro env s
  refine .inr (.inr ⟨rfl, fun h0 => ?_⟩)
  unfold stepLimit
  cases hc : countDown env.debug (get s.io.lims) with
  | none => exact h0
  | some p =>
    dsimp only
    split <;> exact h _ _ h0 (countDown_none hc)

theorem loud_bumpStats (f : Stats → Stats) : Loud (P := P) (C := C) (bumpStats f) := loud_modifyS fun _ => rfl

theorem loud_checkTermination : Loud (P := P) (C := C) checkTermination :=
  loud_same (fun _ _ => rfl) fun _ _ => by unfold checkTermination; dsimp only; split <;> rfl

theorem loud_freshVar : Loud (P := P) (C := C) freshVar := loud_same (fun _ _ => rfl) fun _ _ => rfl

theorem loud_flipLit (l : Lit) : Loud (P := P) (C := C) (flipLit l) :=
  loud_same (fun _ _ => rfl) fun _ _ => by
    unfold flipLit
    split
    · split <;> rfl
    · rfl

theorem loud_oracleSolve (as : List Lit) : Loud (P := P) (C := C) (oracleSolve as) :=
  loud_same (fun _ _ => rfl) fun _ _ => by
    unfold oracleSolve
    dsimp only
    split <;> rfl

/-- Applies the rules to a computation. -/
macro "loud_auto" : tactic => `(tactic| repeat' (first
  | with_reducible exact loud_pure _
  | with_reducible exact loud_stop _
  | with_reducible exact loud_dbg _
  | with_reducible exact loud_unwrap _
  | with_reducible exact loud_orErr _
  | with_reducible exact loud_logEvent _
  | with_reducible exact loud_checkTermination
  | with_reducible exact loud_bumpStats _
  | with_reducible exact loud_isDebug
  | with_reducible exact loud_hasTightening
  | with_reducible exact loud_freshVar
  | with_reducible exact loud_flipLit _
  | assumption
  | (with_reducible refine loud_stepLimit fun l x h h' => ?_; first | exact h | exact h' h)
  | (with_reducible refine loud_getS fun k io encs front fence => ?_; (try dsimp only))
  | (with_reducible refine loud_ite (fun _ => ?_) (fun _ => ?_))
  | (refine loud_modifyS fun _ => rfl)
  | (with_reducible refine loud_bind ?_ (fun _ => ?_))))

theorem loud_logCandidate (costs : List Nat) (p : Phase) : Loud (P := P) (C := C) (logCandidate costs p) := by
  unfold logCandidate; loud_auto

theorem loud_logOracleCall (r : SolverResult) : Loud (P := P) (C := C) (logOracleCall r) := by
  unfold logOracleCall; loud_auto

theorem loud_logSolution : Loud (P := P) (C := C) logSolution := by
  unfold logSolution; loud_auto

theorem loud_logNonDominated (p : NonDomPoint Assignment) :
    Loud (P := P) (C := C) (logNonDominated p) := by
  unfold logNonDominated; loud_auto

theorem loud_start (x : String) : Loud (P := P) (C := C) (logRoutineStart x) := loud_logEvent _

theorem loud_end : Loud (P := P) (C := C) logRoutineEnd := loud_logEvent _

theorem loud_collect (p : NonDomPoint Assignment) : Loud (P := P) (C := C) (collect p) := by
  unfold collect; loud_auto

theorem loud_addClause (c : Clause) : Loud (P := P) (C := C) (addClause c) := by
  unfold addClause; loud_auto

theorem loud_addClauses (cs : List Clause) : Loud (P := P) (C := C) (addClauses cs) := by
  induction cs with
  | nil => exact loud_pure _
  | cons c cs ih => exact loud_bind (loud_addClause c) fun _ => ih

theorem loud_oracleSolution : Loud (P := P) (C := C) oracleSolution := by
  unfold oracleSolution
  refine loud_getS fun k io encs front fence => loud_bind (loud_unwrap _) fun v => ?_
  cases k.ostate <;> loud_auto

theorem loud_oracleCore : Loud (P := P) (C := C) oracleCore := by
  unfold oracleCore
  refine loud_getS fun k io encs front fence => ?_
  dsimp only
  cases k.ostate <;> loud_auto

/-! ## Costs -/

theorem loud_getCost (i : Nat) (sol : Assignment) : Loud (P := P) (C := C) (getCost i sol) := by
  unfold getCost; loud_auto

theorem loud_tryFlip (l : Lit) : Loud (P := P) (C := C) (tryFlip l) := by
  unfold tryFlip; loud_auto

theorem loud_tightenLoop : ∀ (ps : List (Lit × Nat)) (sol : Assignment),
    Loud (P := P) (C := C) (tightenLoop ps sol)
  | [], _ => loud_pure _
  | (l, w) :: ps, sol => by
    unfold tightenLoop
    refine loud_ite (fun _ => loud_bind (loud_tryFlip l) fun f => loud_ite (fun _ => ?_) (fun _ => ?_)) fun _ => loud_tightenLoop ps sol
    · exact loud_bind (loud_tightenLoop ps _) fun _ => loud_pure _
    · exact loud_bind (loud_tightenLoop ps _) fun _ => loud_pure _

theorem loud_rereadSol (o : Objective) (r : Nat × Nat × Assignment) :
    Loud (P := P) (C := C) (rereadSol o r) := by
  unfold rereadSol
  refine loud_ite (fun _ => loud_ite (fun _ => loud_stop _) fun _ => ?_) fun _ => loud_pure _
  refine loud_getS fun k io encs front fence => ?_
  dsimp only
  cases k.ostate <;> loud_auto

theorem loud_getCostTight (i : Nat) (sol : Assignment) (t : Bool) :
    Loud (P := P) (C := C) (getCostTight i sol t) := by
  unfold getCostTight
  refine loud_bind loud_hasTightening fun f => loud_ite (fun _ => ?_) fun _ => loud_bind (loud_getCost i sol) fun _ => loud_pure _
  refine loud_getS fun k io encs front fence => loud_bind (loud_unwrap _) fun o => ?_
  exact loud_bind (loud_tightenLoop _ _) fun r => loud_bind (loud_rereadSol o r) fun _ => loud_bind (loud_logEvent _) fun _ => loud_pure _

theorem loud_tightCosts (t : Bool) : ∀ (n i : Nat) (sol : Assignment),
    Loud (P := P) (C := C) (tightCosts t n i sol)
  | 0, _, _ => loud_pure _
  | n + 1, i, sol => by
    unfold tightCosts
    exact loud_bind (loud_getCostTight i sol t) fun r => loud_bind (loud_tightCosts t n (i + 1) r.2) fun _ => loud_pure _

theorem loud_getSolutionAndCosts (t : Bool) :
    Loud (P := P) (C := C) (getSolutionAndCosts t) := by
  unfold getSolutionAndCosts
  refine loud_bind loud_oracleSolution fun sol => loud_getS fun k io encs front fence => ?_
  dsimp only
  exact loud_bind (loud_tightCosts t _ _ _) fun r => loud_bind (loud_dbg _) fun _ => loud_pure _

theorem loud_externalize (costs : List Nat) : Loud (P := P) (C := C) (externalize costs) := by
  unfold externalize; loud_auto

theorem loud_blockSolution (sol : Assignment) : Loud (P := P) (C := C) (blockSolution sol) := by
  unfold blockSolution
  refine loud_getS fun k io encs front fence => ?_
  dsimp only
  cases k.opts.enumeration with
  | noEnum => exact loud_stop _
  | solutions _ => exact loud_addClause _
  | pmcss _ => exact loud_bind (loud_unwrap _) fun _ => loud_addClause _

theorem loud_unphaseSolution : Loud (P := P) (C := C) unphaseSolution := by
  unfold unphaseSolution; loud_auto

/-! ## Enumeration -/

theorem loud_solveAssumps (as : List Lit) : Loud (P := P) (C := C) (solveAssumps as) := by
  unfold solveAssumps
  exact loud_bind (loud_start _) fun _ => loud_bind (loud_oracleSolve as) fun _ => loud_bind loud_end fun _ =>
    loud_bind loud_checkTermination fun _ => loud_bind (loud_logOracleCall _) fun _ => loud_pure _

/-- A message that is counted fails or does the same as with a logger that does not fail. -/
theorem strict_log (f : Stats → Stats) (e : LogEvent) (get : Limits → Option Nat) (set : Option Nat → Limits → Limits)
    (t : Termination) (env : Env) (s : Slv P C) :
    let c : M P C Unit := do bumpStats f; logEvent e; stepLimit get set t
    (c env s).1 = .error .error ∨ c env s = c env.safe s := by
  intro c
  have hc : c = M.bind (bumpStats f) fun _ => M.bind (logEvent e) fun _ => stepLimit get set t := rfl
  rw [hc]
  unfold M.bind bumpStats modifyS logEvent
  dsimp only [Env.safe]
  cases s.io.logger with
  | none => exact .inr rfl
  | some l =>
    dsimp only
    cases env.logOk s.io.tick with
    | true => exact .inr rfl
    | false => exact .inl rfl

/-- A result that is bound without `?`. If it is an error of the logger, then the rest has to report it. -/
theorem loud_attempt {c : M P C α} {f : Except Stop α → M P C β} (hc : Loud c)
    (hs : ∀ env s, (c env s).1 = .error .error ∨ c env s = c env.safe s) (hf : ∀ r, Loud (f r))
    (he : ∀ env s, (c env s).1 = .error .error →
      (f (.error .error) env (c env s).2).1 = .error .error ∨ s.io.lims.pps ≠ none ∧
      ((f (.error .error) env (c env s).2).1 = .error (.terminated .ppLimit) ∨
        (f (.error .error) env (c env s).2).1 = .error .panic)) :
    Loud (attempt c >>= f) := by
  intro env s
  change (M.bind (attempt c) f env s).1 = _ ∨ s.io.lims.pps ≠ none ∧
    ((M.bind (attempt c) f env s).1 = _ ∨ (M.bind (attempt c) f env s).1 = _) ∨
    M.bind (attempt c) f env s = M.bind (attempt c) f env.safe s ∧
      (_ → (M.bind (attempt c) f env s).2.io.lims.pps = none)
  have h := hc env s
  have hs' := hs env s
  have he' := he env s
  have hfr : ∀ r s', (s.io.lims.pps = none → s'.io.lims.pps = none) → (f r env s').1 = .error .error ∨
      s.io.lims.pps ≠ none ∧ ((f r env s').1 = .error (.terminated .ppLimit) ∨ (f r env s').1 = .error .panic) ∨
      f r env s' = f r env.safe s' ∧ (s.io.lims.pps = none → (f r env s').2.io.lims.pps = none) := by
    intro r s' hp
    rcases hf r env s' with h2 | ⟨h2, h3⟩ | ⟨h2, h3⟩
    · exact .inl h2
    · exact .inr (.inl ⟨fun h0 => h2 (hp h0), h3⟩)
    · exact .inr (.inr ⟨h2, fun h0 => h3 (hp h0)⟩)
  unfold M.bind attempt
  rcases hr : c env s with ⟨r, s'⟩
  rw [hr] at h hs' he'
  dsimp only at h he' hs' ⊢
  by_cases hre : r = .error .error
  · subst hre
    dsimp only
    exact (he' rfl).imp_right .inl
  · have hsafe : c env.safe s = (r, s') := (hs'.resolve_left hre).symm
    have hp : s.io.lims.pps = none → s'.io.lims.pps = none := by
      intro h0
      rcases h with h | ⟨h, -⟩ | ⟨-, h⟩
      · exact absurd h hre
      · exact absurd h0 h
      · exact h h0
    rw [hsafe]
    rcases r with e | a
    · cases e with
      | panic => exact .inr (.inr ⟨rfl, hp⟩)
      | fuel => exact .inr (.inr ⟨rfl, hp⟩)
      | error => exact absurd rfl hre
      | terminated t => exact hfr _ _ hp
    · exact hfr _ _ hp

theorem loud_ofExcept (r : Except Stop α) : Loud (P := P) (C := C) (ofExcept r) := loud_same (fun _ _ => rfl) fun _ _ => rfl

/-- The end of a point: it is logged and collected, and an error of the message is reported afterwards. -/
theorem loud_report (nd : NonDomPoint Assignment) (rest : Except Stop Unit → M P C α) (hr : ∀ r, Loud (rest r))
    (he : ∀ env s, (rest (.error .error) env s).1 = .error .error) :
    Loud (P := P) (C := C) (do let r ← attempt (logNonDominated nd); collect nd; rest r) :=
  loud_attempt (loud_logNonDominated nd) (fun env s => strict_log _ _ _ _ _ env s)
    (fun r => loud_bind (loud_collect nd) fun _ => hr r) fun env s _ => .inl (he env _)

theorem loud_close (nd : NonDomPoint Assignment) : Loud (P := P) (C := C) (do
    let ppTerm ← attempt (logNonDominated nd)
    collect nd
    logRoutineEnd
    ofExcept ppTerm
    M.pure (Sum.inr () : (NonDomPoint Assignment × Assignment) ⊕ Unit)) := by
  refine loud_report nd (fun r => do logRoutineEnd; ofExcept r; M.pure (Sum.inr ()))
    (fun r => loud_bind loud_end fun _ => loud_bind (loud_ofExcept r) fun _ => loud_pure _) fun env s => ?_
  change (M.bind logRoutineEnd (fun _ => M.bind (ofExcept (.error .error)) fun _ => M.pure (Sum.inr ())) env s).1 = _
  unfold M.bind logRoutineEnd logEvent
  cases s.io.logger with
  | none => rfl
  | some l =>
    dsimp only
    cases env.logOk s.io.tick <;> rfl

theorem logEvent_result (e : LogEvent) (env : Env) (s : Slv P C) : (logEvent e env s).1 = .error .error ∨
    (logEvent e env s).1 = .ok () ∧ (logEvent e env s).2.io.lims = s.io.lims := by
  unfold logEvent
  cases s.io.logger with
  | none => exact .inr ⟨rfl, rfl⟩
  | some l =>
    dsimp only
    cases env.logOk s.io.tick with
    | true => exact .inr ⟨rfl, rfl⟩
    | false => exact .inl rfl

theorem ppLimit_result (env : Env) (s : Slv P C) :
    let r := stepLimit (P := P) (C := C) (·.pps) (fun l ls => { ls with pps := l }) .ppLimit env s
    r.1 = .ok () ∨ s.io.lims.pps ≠ none ∧ (r.1 = .error (.terminated .ppLimit) ∨ r.1 = .error .panic) := by
  intro r
  have hr : r = stepLimit (P := P) (C := C) (·.pps) (fun l ls => { ls with pps := l }) .ppLimit env s := rfl
  unfold stepLimit at hr
  by_cases hp : s.io.lims.pps = none
  · rw [show countDown env.debug ((·.pps) s.io.lims) = some (none, false) by dsimp only; rw [hp]; rfl] at hr
    rw [hr]
    exact .inl rfl
  · cases hc : countDown env.debug ((·.pps) s.io.lims) with
    | none => rw [hc] at hr; rw [hr]; exact .inr ⟨hp, .inr rfl⟩
    | some q =>
      rw [hc] at hr
      dsimp only at hr
      split at hr
      · rw [hr]; exact .inr ⟨hp, .inl rfl⟩
      · rw [hr]; exact .inl rfl

theorem nd_result (nd : NonDomPoint Assignment) (env : Env) (s : Slv P C) : (logNonDominated nd env s).1 = .error .error ∨
    (logNonDominated nd env s).1 = .ok () ∨ s.io.lims.pps ≠ none ∧
      ((logNonDominated nd env s).1 = .error (.terminated .ppLimit) ∨ (logNonDominated nd env s).1 = .error .panic) := by
  have hc : logNonDominated (P := P) (C := C) nd env s = M.bind (logEvent (.nonDominated nd))
      (fun _ => stepLimit (·.pps) (fun l ls => { ls with pps := l }) .ppLimit) env
      { s with io := { s.io with stats := { s.io.stats with nNonDominated := s.io.stats.nNonDominated + 1 } } } := rfl
  rw [hc]
  generalize hs1 : ({ s with io := { s.io with stats := { s.io.stats with nNonDominated := s.io.stats.nNonDominated + 1 } } } :
    Slv P C) = s1
  have hl1 : s1.io.lims = s.io.lims := by rw [← hs1]
  have h := logEvent_result (.nonDominated nd) env s1
  unfold M.bind
  rcases hr : logEvent (.nonDominated nd) env s1 with ⟨r, s2⟩
  rw [hr] at h
  dsimp only at h
  rcases h with h | ⟨h, hl⟩
  · rw [h]; exact .inl rfl
  · rw [h]
    dsimp only
    have h2 := ppLimit_result env s2
    dsimp only at h2
    rw [hl, hl1] at h2
    exact .inr h2

/-- After an error of the logger, only the limit on the number of points can come before it. -/
theorem error_report (nd : NonDomPoint Assignment) (env : Env) (s : Slv P C) :
    let c : M P C α := do let r ← attempt (logNonDominated nd); collect nd; ofExcept r; stop .error
    (c env s).1 = .error .error ∨ s.io.lims.pps ≠ none ∧
      ((c env s).1 = .error (.terminated .ppLimit) ∨ (c env s).1 = .error .panic) := by
  intro c
  have hc : c = M.bind (attempt (logNonDominated nd))
      fun r => M.bind (collect nd) fun _ => M.bind (ofExcept r) fun _ => stop .error := rfl
  rw [hc]
  have h := nd_result nd env s
  unfold M.bind attempt
  rcases hr : logNonDominated nd env s with ⟨r, s2⟩
  rw [hr] at h
  dsimp only at h
  rcases h with h | h | ⟨h0, h | h⟩
  · subst h; exact .inl rfl
  · subst h; exact .inl rfl
  · subst h; exact .inr ⟨h0, .inl rfl⟩
  · subst h; exact .inr ⟨h0, .inr rfl⟩

theorem stepLimit_ne (get : Limits → Option Nat) (set : Option Nat → Limits → Limits) (t : Termination) (env : Env) (s : Slv P C) :
    (stepLimit get set t env s).1 ≠ .error .error := by
  unfold stepLimit
  split
  · simp
  · dsimp only
    split <;> simp

theorem logEvent_lims (e : LogEvent) (env : Env) (s : Slv P C) : (logEvent e env s).2.io.lims = s.io.lims := by
  unfold logEvent
  cases s.io.logger with
  | none => rfl
  | some l =>
    dsimp only
    split <;> rfl

theorem sol_lims (env : Env) (s : Slv P C) (h : (logSolution env s).1 = .error .error) :
    (logSolution env s).2.io.lims = s.io.lims := by
  have hc : logSolution (P := P) (C := C) env s = M.bind (logEvent .solution)
      (fun _ => stepLimit (·.sols) (fun l ls => { ls with sols := l }) .solsLimit) env
      { s with io := { s.io with stats := { s.io.stats with nSolutions := s.io.stats.nSolutions + 1 } } } := rfl
  rw [hc] at h ⊢
  generalize hs1 : ({ s with io := { s.io with stats := { s.io.stats with nSolutions := s.io.stats.nSolutions + 1 } } } :
    Slv P C) = s1 at h ⊢
  have hl1 : s1.io.lims = s.io.lims := by rw [← hs1]
  have h2 := logEvent_lims .solution env s1
  unfold M.bind at h ⊢
  rcases hr : logEvent .solution env s1 with ⟨r, s2⟩
  rw [hr] at h h2
  rcases r with e | a
  · exact h2.trans hl1
  · exact absurd h (stepLimit_ne _ _ _ _ _)

theorem loud_yieldBody (costs : List Nat) (assumps : List Lit) (st : NonDomPoint Assignment × Assignment) :
    Loud (P := P) (C := C) (yieldBody costs assumps st) := by
  unfold yieldBody
  refine loud_getS fun k io encs front fence => loud_bind (loud_dbg _) fun _ => ?_
  dsimp only
  refine loud_attempt loud_logSolution (fun env s => strict_log _ _ _ _ _ env s) (fun r => ?_) fun env s h => ?_
  · rcases r with e | a
    · exact loud_report _ (fun r => do ofExcept r; stop e) (fun r => loud_bind (loud_ofExcept r) fun _ => loud_stop _)
        fun _ _ => rfl
    · dsimp only
      refine loud_ite (fun _ => loud_close _) fun _ => ?_
      refine loud_bind loud_checkTermination fun _ => loud_bind (loud_blockSolution _) fun _ =>
        loud_bind (loud_solveAssumps _) fun res => loud_ite (fun _ => loud_close _) fun _ => ?_
      exact loud_bind loud_checkTermination fun _ => loud_bind loud_oracleSolution fun _ => loud_pure _
  · have h2 := error_report (α := (NonDomPoint Assignment × Assignment) ⊕ Unit) (st.1.addSol (st.2.truncate k.vm.maxOrigVar)) env
      (logSolution env s).2
    dsimp only at h2
    rw [sol_lims env s h] at h2
    exact h2

theorem loud_yieldLoop (costs : List Nat) (assumps : List Lit) {n : Nat} (st : NonDomPoint Assignment × Assignment) :
    Loud (P := P) (C := C) (loopM (yieldBody costs assumps) n st) := loud_loop (loud_yieldBody costs assumps) st



theorem loud_yieldSolutions {m : Nat} (costs : List Nat) (assumps : List Lit) (sol : Assignment) :
    Loud (P := P) (C := C) (yieldSolutions m costs assumps sol) := by
  unfold yieldSolutions
  refine loud_getS fun k io encs front fence => ?_
  dsimp only
  exact loud_bind (loud_dbg _) fun _ => loud_bind (loud_start _) fun _ => loud_bind loud_unphaseSolution fun _ =>
    loud_bind (loud_externalize _) fun _ => loud_yieldLoop _ _ _

/-! ## Encodings and linear search -/

variable [UbEnc P] [UbEnc C]

theorem loud_encAt (i : Nat) : Loud (P := P) (C := C) (encAt i) := by
  unfold encAt; loud_auto

theorem loud_extendEncoding (i lo hi : Nat) : Loud (P := P) (C := C) (extendEncoding i lo hi) := by
  unfold extendEncoding
  refine loud_getS fun k io encs front fence => loud_bind (loud_encAt i) fun e => ?_
  dsimp only
  loud_auto

theorem loud_linsuBody (oi ei : Nat) (base : List Lit) (lb : Nat) (st : Nat × Option Assignment) :
    Loud (P := P) (C := C) (linsuBody oi ei base lb st) := by
  unfold linsuBody
  refine loud_ite (fun _ => ?_) fun _ => loud_pure _
  refine loud_bind (loud_extendEncoding _ _ _) fun _ => loud_bind (loud_encAt _) fun e => loud_bind (loud_unwrap _) fun ls => ?_
  refine loud_bind (loud_solveAssumps _) fun res => ?_
  cases res with
  | sat =>
    refine loud_bind loud_oracleSolution fun sol => loud_bind (loud_getCost _ _) fun c => loud_bind (loud_dbg _) fun _ => ?_
    exact loud_getS fun k io encs front fence => loud_bind (loud_logCandidate _ _) fun _ => loud_pure _
  | unsat => exact loud_pure _
  | interrupted => exact loud_stop _

theorem loud_linsuFinish (ei : Nat) (base : List Lit) (st : Nat × Option Assignment) :
    Loud (P := P) (C := C) (linsuFinish ei base st) := by
  unfold linsuFinish
  cases st.2 with
  | some sol => exact loud_bind loud_end fun _ => loud_pure _
  | none =>
    refine loud_bind (loud_extendEncoding _ _ _) fun _ => loud_bind (loud_encAt _) fun e => loud_bind (loud_unwrap _) fun ls => ?_
    exact loud_bind (loud_solveAssumps _) fun res => loud_bind (loud_dbg _) fun _ => loud_bind loud_oracleSolution fun _ =>
      loud_bind loud_end fun _ => loud_pure _

theorem loud_linsu {m : Nat} (oi ei : Nat) (base : List Lit) (ub : Option (Nat × Option Assignment))
    (lb : Option Nat) : Loud (P := P) (C := C) (linsu m oi ei base ub lb) := by
  have hl : ∀ st, Loud (P := P) (C := C) (do
        let st ← loopM (linsuBody oi ei base (lb.getD 0)) m st
        let r ← linsuFinish ei base st
        M.pure (some r)) := fun st =>
    loud_bind (loud_loop (loud_linsuBody _ _ _ _) _) fun _ => loud_bind (loud_linsuFinish _ _ _) fun _ => loud_pure _
  unfold linsu
  refine loud_bind (loud_start _) fun _ => ?_
  cases ub with
  | some b => exact hl b
  | none =>
    refine loud_bind (loud_solveAssumps _) fun res => loud_ite (fun _ => loud_bind loud_end fun _ => loud_pure _) fun _ => ?_
    exact loud_bind loud_oracleSolution fun sol => loud_bind (loud_getCostTight _ _ _) fun r => hl _

theorem loud_linsuYield {m : Nat} (oi ei : Nat) (base : List Lit) (ub : Option (Nat × Option Assignment))
    (lb : Option Nat) : Loud (P := P) (C := C) (linsuYield m oi ei base ub lb) := by
  unfold linsuYield
  refine loud_bind (loud_linsu _ _ _ _ _) fun r => ?_
  cases r with
  | none => exact loud_pure _
  | some p =>
    refine loud_getS fun k io encs front fence => loud_bind (loud_dbg _) fun _ => ?_
    exact loud_bind (loud_extendEncoding _ _ _) fun _ => loud_bind (loud_encAt _) fun e => loud_bind (loud_unwrap _) fun ls =>
      loud_bind (loud_yieldSolutions _ _ _) fun _ => loud_pure _

theorem loud_resetOracle (b : Bool) : Loud (P := P) (C := C) (resetOracle b) := by
  unfold resetOracle
  refine loud_getS fun k io encs front fence => loud_ite (fun _ => ?_) fun _ => loud_stop _
  refine loud_bind (loud_start _) fun _ => ?_
  refine loud_ite (fun _ => ?_) fun _ => loud_bind (loud_unwrap _) fun _ => ?_
  all_goals
    refine loud_bind (loud_pure _) fun _ => loud_bind (loud_unwrap _) fun _ => loud_bind ?_ fun _ => loud_end
    loud_auto

/-! ## P-minimal -/

theorem loud_domBlockLoop : ∀ (cs : List Nat) (i : Nat) (cl : Clause),
    Loud (P := P) (C := C) (domBlockLoop i cs cl)
  | [], _, _ => loud_pure _
  | c :: cs, i, cl => by
    have ih := loud_domBlockLoop cs
    unfold domBlockLoop
    refine loud_bind (loud_encAt _) fun e => loud_ite (fun _ => ih _ _) fun _ => loud_ite (fun _ => ih _ _) fun _ => ?_
    refine loud_bind (loud_extendEncoding _ _ _) fun _ => loud_bind (loud_encAt _) fun e => loud_bind (loud_orErr _) fun ls => ?_
    have hmany : ∀ ls : List Lit, Loud (P := P) (C := C) (do
          dbg (!ls.isEmpty)
          let v ← freshVar
          addClauses (litImplCube (Lit.pos v) ls)
          domBlockLoop (i + 1) cs (cl ++ [Lit.pos v])) := fun ls =>
      loud_bind (loud_dbg _) fun _ => loud_bind loud_freshVar fun v => loud_bind (loud_addClauses _) fun _ => ih _ _
    match ls with
    | [] => exact hmany []
    | [l] => exact ih _ _
    | a :: b :: ls => exact hmany (a :: b :: ls)

theorem loud_dominatedBlockClause (costs : List Nat) :
    Loud (P := P) (C := C) (dominatedBlockClause costs) := by
  unfold dominatedBlockClause
  exact loud_getS fun k io encs front fence => loud_bind (loud_dbg _) fun _ => loud_domBlockLoop _ _ _

theorem loud_tmpBlockDominated (costs : List Nat) :
    Loud (P := P) (C := C) (tmpBlockDominated costs) := by
  unfold tmpBlockDominated
  refine loud_getS fun k io encs front fence => ?_
  dsimp only
  exact loud_bind (loud_dbg _) fun _ => loud_bind (loud_dominatedBlockClause _) fun _ => loud_bind loud_freshVar fun _ =>
    loud_bind (loud_addClause _) fun _ => loud_pure _

theorem loud_enforceDomEncode : ∀ (cs : List Nat) (i : Nat), Loud (P := P) (C := C) (enforceDomEncode i cs)
  | [], _ => loud_pure _
  | c :: cs, i => by
    unfold enforceDomEncode
    exact loud_bind (loud_extendEncoding _ _ _) fun _ => loud_enforceDomEncode cs (i + 1)

theorem loud_enforceDomLits : ∀ (cs : List Nat) (i : Nat), Loud (P := P) (C := C) (enforceDomLits i cs)
  | [], _ => loud_pure _
  | c :: cs, i => by
    unfold enforceDomLits
    exact loud_bind (loud_encAt _) fun _ => loud_bind (loud_unwrap _) fun _ => loud_bind (loud_enforceDomLits cs (i + 1)) fun _ => loud_pure _

theorem loud_enforceDominating (costs : List Nat) :
    Loud (P := P) (C := C) (enforceDominating costs) := by
  unfold enforceDominating
  refine loud_getS fun k io encs front fence => ?_
  dsimp only
  exact loud_bind (loud_dbg _) fun _ => loud_bind (loud_enforceDomEncode _ _) fun _ => loud_enforceDomLits _ _

theorem loud_commitBlock (o : Option Lit) : Loud (P := P) (C := C) (commitBlock o) := by
  cases o
  · exact loud_pure _
  · exact loud_addClause _

theorem loud_pminBlock (base : List Lit) (costs : List Nat) (bs : Option Lit) :
    Loud (P := P) (C := C) (pminBlock base costs bs) := by
  unfold pminBlock
  refine loud_getS fun k io encs front fence => loud_ite (fun _ => ?_) fun _ => ?_
  · exact loud_bind (loud_dominatedBlockClause _) fun _ => loud_bind (loud_addClause _) fun _ => loud_pure _
  · exact loud_bind (loud_commitBlock _) fun _ => loud_bind (loud_tmpBlockDominated _) fun _ => loud_pure _

theorem loud_pminBody (base : List Lit) (st : PMinState) : Loud (P := P) (C := C) (pminBody base st) := by
  unfold pminBody
  refine loud_bind (loud_pminBlock _ _ _) fun r => loud_bind (loud_enforceDominating _) fun dom => ?_
  refine loud_bind (loud_solveAssumps _) fun res => loud_ite (fun _ => loud_bind loud_end fun _ => loud_pure _) fun _ => ?_
  refine loud_bind loud_checkTermination fun _ => loud_getS fun k io encs front fence => ?_
  exact loud_bind (loud_getSolutionAndCosts _) fun r => loud_bind (loud_logCandidate _ _) fun _ =>
    loud_bind loud_checkTermination fun _ => loud_pure _

theorem loud_pMinimization {m : Nat} (costs : List Nat) (sol : Assignment) (base : List Lit) :
    Loud (P := P) (C := C) (pMinimization m costs sol base) := by
  unfold pMinimization
  refine loud_getS fun k io encs front fence => ?_
  dsimp only
  exact loud_bind (loud_dbg _) fun _ => loud_bind (loud_start _) fun _ => loud_loop (loud_pminBody _) _

theorem loud_harvestBody {m : Nat} (assumps base : List Lit) (u : Unit) :
    Loud (P := P) (C := C) (harvestBody m assumps base u) := by
  unfold harvestBody
  refine loud_bind (loud_solveAssumps _) fun res => loud_ite (fun _ => loud_bind loud_end fun _ => loud_pure _) fun _ => ?_
  refine loud_bind loud_checkTermination fun _ => loud_getS fun k io encs front fence => ?_
  refine loud_bind (loud_getSolutionAndCosts _) fun r => loud_bind (loud_logCandidate _ _) fun _ =>
    loud_bind loud_checkTermination fun _ => loud_bind (loud_pMinimization _ _ _) fun r => ?_
  exact loud_bind (loud_enforceDominating _) fun _ => loud_bind (loud_yieldSolutions _ _ _) fun _ =>
    loud_bind (loud_commitBlock _) fun _ => loud_pure _

theorem loud_pminMain {m : Nat} : Loud (P := P) (C := C) (pminMain m) := by
  unfold pminMain
  refine loud_getS fun k io encs front fence => ?_
  dsimp only
  exact loud_bind (loud_dbg _) fun _ => loud_bind (loud_start _) fun _ => loud_loop (loud_harvestBody _ _) _

/-! ## Lower-bounding -/

theorem loud_updateFenceLoop : ∀ (core : List Lit) (found : List Bool),
    Loud (P := P) (C := C) (updateFenceLoop core found)
  | [], _ => loud_pure _
  | l :: core, found => by
    have ih := loud_updateFenceLoop core
    unfold updateFenceLoop
    refine loud_getS fun k io encs front fence => ?_
    dsimp only
    cases fenceMatch l found fence 0 with
    | none => exact ih _
    | some i =>
      refine loud_bind (loud_unwrap _) fun p => loud_bind (loud_encAt _) fun e => loud_bind (loud_unwrap _) fun b => ?_
      refine loud_bind (loud_extendEncoding _ _ _) fun _ => loud_bind (loud_encAt _) fun e => loud_bind (loud_unwrap _) fun ls => ?_
      refine loud_bind ?_ fun _ => ih _
      loud_auto

theorem loud_updateFence (core : List Lit) : Loud (P := P) (C := C) (updateFence core) := by
  unfold updateFence
  exact loud_getS fun k io encs front fence => loud_bind (loud_updateFenceLoop _ _) fun _ =>
    loud_getS fun k io encs front fence => loud_logEvent _

theorem loud_harvest {m : Nat} (base : List Lit) : Loud (P := P) (C := C) (harvest m base) := by
  unfold harvest
  refine loud_getS fun k io encs front fence => ?_
  dsimp only
  exact loud_bind (loud_dbg _) fun _ => loud_bind (loud_start _) fun _ => loud_loop (loud_harvestBody _ _) _

theorem loud_initFenceLoop : ∀ (n i : Nat), Loud (P := P) (C := C) (initFenceLoop i n)
  | 0, _ => loud_pure _
  | n + 1, i => by
    unfold initFenceLoop
    refine loud_bind (loud_encAt _) fun e => loud_bind (loud_extendEncoding _ _ _) fun _ => loud_bind (loud_encAt _) fun e => ?_
    refine loud_bind (loud_unwrap _) fun ls => loud_bind ?_ fun _ => loud_initFenceLoop n (i + 1)
    loud_auto

theorem loud_initFence : Loud (P := P) (C := C) initFence := by
  unfold initFence
  exact loud_getS fun k io encs front fence => loud_ite (fun _ => loud_initFenceLoop _ _) fun _ => loud_pure _

theorem loud_lbBody {m : Nat} (u : Unit) : Loud (P := P) (C := C) (lbBody m u) := by
  unfold lbBody
  refine loud_getS fun k io encs front fence => loud_bind (loud_solveAssumps _) fun res => ?_
  cases res with
  | sat => exact loud_bind (loud_harvest _) fun _ => loud_pure _
  | unsat =>
    refine loud_bind loud_oracleCore fun core => loud_ite (fun _ => loud_bind loud_end fun _ => loud_pure _) fun _ => ?_
    exact loud_getS fun k io encs front fence => loud_bind (loud_updateFence _) fun _ =>
      loud_getS fun k io encs front fence => loud_bind (loud_dbg _) fun _ => loud_pure _
  | interrupted => exact loud_stop _

theorem loud_lbMain {m : Nat} : Loud (P := P) (C := C) (lbMain m) := by
  unfold lbMain
  refine loud_getS fun k io encs front fence => ?_
  dsimp only
  exact loud_bind (loud_dbg _) fun _ => loud_bind (loud_start _) fun _ => loud_bind loud_initFence fun _ =>
    loud_loop (loud_lbBody) _

/-! ## BiOptSat -/

theorem loud_bosNext (incObj : Nat) (base : List Lit) (incCost decCost : Nat) :
    Loud (P := P) (C := C) (bosNext incObj base incCost decCost) := by
  unfold bosNext
  refine loud_bind (loud_extendEncoding _ _ _) fun _ => loud_bind (loud_encAt _) fun e => loud_bind (loud_orErr _) fun ls => ?_
  refine loud_bind (loud_addClauses _) fun _ => loud_bind (loud_solveAssumps _) fun res => ?_
  cases res with
  | sat => exact loud_bind loud_oracleSolution fun _ => loud_bind (loud_getCostTight _ _ _) fun _ => loud_pure _
  | unsat => exact loud_bind loud_end fun _ => loud_pure _
  | interrupted => exact loud_stop _

theorem loud_bosBody {m : Nat} (incObj decObj : Nat) (base : List Lit) (decLb : Nat)
    (lookup : Nat → Option Nat) (st : BosState) :
    Loud (P := P) (C := C) (bosBody m incObj decObj base decLb lookup st) := by
  unfold bosBody
  refine loud_bind (loud_linsu _ _ _ _ _) fun r => ?_
  cases r with
  | none => exact loud_bind loud_end fun _ => loud_pure _
  | some p =>
    refine loud_bind (loud_getCost _ _) fun d => ?_
    have hend : ∀ c, Loud (P := P) (C := C) (if c ≤ decLb then do logRoutineEnd; M.pure (.inr ()) else bosNext incObj base p.1 c) := fun c =>
      loud_ite (fun _ => loud_bind loud_end fun _ => loud_pure _) fun _ => loud_bosNext _ _ _ _
    refine loud_bind ?_ hend
    cases lookup p.1 with
    | some x => exact loud_pure _
    | none =>
      exact loud_bind (loud_extendEncoding _ _ _) fun _ => loud_bind (loud_encAt _) fun e => loud_bind (loud_unwrap _) fun ls =>
        loud_bind (loud_linsuYield _ _ _ _ _) fun _ => loud_bind (loud_unwrap _) fun _ => loud_pure _

theorem loud_bioptsat {m : Nat} (incObj decObj : Nat) (base : List Lit) (start : Option (Nat × Assignment))
    (incLb decLb : Option Nat) (lookup : Nat → Option Nat) :
    Loud (P := P) (C := C) (bioptsat m incObj decObj base start incLb decLb lookup) := by
  unfold bioptsat
  refine loud_bind (loud_start _) fun _ => loud_getS fun k io encs front fence => loud_bind (loud_dbg _) fun _ => ?_
  refine loud_bind (loud_encAt _) fun e0 => loud_bind (loud_encAt _) fun e1 => ?_
  dsimp only
  cases start with
  | some b => exact loud_loop (loud_bosBody _ _ _ _ _) _
  | none =>
    refine loud_bind (loud_solveAssumps _) fun res => loud_ite (fun _ => loud_pure _) fun _ => ?_
    exact loud_bind loud_oracleSolution fun _ => loud_bind (loud_getCostTight _ _ _) fun _ => loud_loop (loud_bosBody _ _ _ _ _) _

/-! ## Core-guided search -/

section Cores

variable {D : Type} [TotDb D]

theorem loud_insert (i : Inactives) (l : Lit) (w : Nat) : Loud (P := P) (C := C) (i.insert l w) := by
  unfold Inactives.insert
  cases i with
  | weighted m => exact loud_pure _
  | unweighted lits active => exact loud_bind (loud_dbg _) fun _ => loud_pure _
  | constant => exact loud_stop _

theorem loud_relax (i : Inactives) (l : Lit) (w : Nat) : Loud (P := P) (C := C) (i.relax l w) := by
  unfold Inactives.relax
  cases i with
  | weighted m =>
    dsimp only
    cases mapGet l m with
    | some lw => exact loud_ite (fun _ => loud_stop _) fun _ => loud_pure _
    | none => exact loud_stop _
  | unweighted lits active => exact loud_bind (loud_dbg _) fun _ => loud_pure _
  | constant => exact loud_stop _

theorem loud_ollPrepare (i : Inactives) (rest : List Lit) : Loud (P := P) (C := C) (ollPrepare i rest) := by
  unfold ollPrepare
  cases i with
  | weighted m => exact loud_bind (loud_unwrap _) fun _ => loud_pure _
  | unweighted lits active => exact loud_pure _
  | constant => exact loud_stop _

theorem loud_setConflLimit (b : Bool) : Loud (P := P) (C := C) (setConflLimit b) := by
  unfold setConflLimit; loud_auto

theorem loud_buildOutput (d : D) (root oidx : Nat) : Loud (P := P) (C := C) (buildOutput d root oidx) := by
  unfold buildOutput
  refine loud_getS fun k io encs front fence => ?_
  dsimp only
  refine loud_bind ?_ fun _ => loud_pure _
  loud_auto

theorem loud_exhaustLoop (root : Nat) (base : List Lit) : ∀ (g bound : Nat) (olit : Lit) (d : D),
    Loud (P := P) (C := C) (exhaustLoop root base g bound olit d)
  | 0, _, _, _ => loud_pure _
  | g + 1, bound, olit, d => by
    unfold exhaustLoop
    exact loud_bind (loud_buildOutput _ _ _) fun r => loud_bind (loud_setConflLimit _) fun _ =>
      loud_bind (loud_solveAssumps _) fun res => loud_ite (fun _ => loud_pure _) fun _ => loud_exhaustLoop root base g _ _ _

theorem loud_exhaustCore (root : Nat) (base : List Lit) (d : D) :
    Loud (P := P) (C := C) (exhaustCore root base d) := by
  unfold exhaustCore
  refine loud_getS fun k io encs front fence => loud_ite (fun _ => ?_) fun _ => ?_
  · exact loud_bind (loud_buildOutput _ _ _) fun r => loud_pure _
  · exact loud_bind (loud_start _) fun _ => loud_bind (loud_dbg _) fun _ => loud_bind (loud_exhaustLoop _ _ _ _ _ _) fun r =>
      loud_bind (loud_setConflLimit _) fun _ => loud_bind loud_end fun _ => loud_pure _

theorem loud_minimizeLoop (base : List Lit) : ∀ (xs core : List Lit),
    Loud (P := P) (C := C) (minimizeLoop base xs core)
  | [], _ => loud_pure _
  | x :: xs, core => by
    unfold minimizeLoop
    exact loud_bind (loud_solveAssumps _) fun res => loud_ite
      (fun _ => loud_bind loud_oracleCore fun _ => loud_minimizeLoop base xs _) fun _ => loud_minimizeLoop base xs _

theorem loud_minimizeCore (core base : List Lit) : Loud (P := P) (C := C) (minimizeCore core base) := by
  unfold minimizeCore
  refine loud_getS fun k io encs front fence => loud_ite (fun _ => loud_pure _) fun _ =>
    loud_ite (fun _ => loud_pure _) fun _ => ?_
  exact loud_bind (loud_start _) fun _ => loud_bind (loud_setConflLimit _) fun _ => loud_bind (loud_minimizeLoop _ _ _) fun _ =>
    loud_bind (loud_setConflLimit _) fun _ => loud_bind loud_end fun _ => loud_pure _

theorem loud_trimBody (base core : List Lit) : Loud (P := P) (C := C) (trimBody base core) := by
  unfold trimBody
  exact loud_ite (fun _ => loud_bind (loud_solveAssumps _) fun _ => loud_bind (loud_dbg _) fun _ => loud_bind loud_oracleCore fun _ =>
    loud_ite (fun _ => loud_pure _) fun _ => loud_pure _) fun _ => loud_pure _

theorem loud_trimCore {m : Nat} (core base : List Lit) :
    Loud (P := P) (C := C) (trimCore m core base) := by
  unfold trimCore
  refine loud_getS fun k io encs front fence => loud_ite (fun _ => loud_pure _) fun _ =>
    loud_ite (fun _ => loud_pure _) fun _ => ?_
  exact loud_bind (loud_start _) fun _ => loud_bind (loud_loop (loud_trimBody _) _) fun _ => loud_bind loud_end fun _ => loud_pure _

theorem loud_relaxLit (cw : Nat) (st : RelaxState D) (olit : Lit) :
    Loud (P := P) (C := C) (relaxLit cw st olit) := by
  unfold relaxLit
  refine loud_bind (loud_relax _ _ _) fun r => ?_
  dsimp only
  cases mapGet olit st.refs with
  | some rd =>
    refine loud_ite (fun _ => loud_pure _) fun _ => loud_ite (fun _ => loud_pure _) fun _ => ?_
    exact loud_bind (loud_buildOutput _ _ _) fun _ => loud_bind (loud_insert _ _ _) fun _ => loud_pure _
  | none => exact loud_pure _

theorem loud_relaxLoop (cw : Nat) : ∀ (ls : List Lit) (st : RelaxState D),
    Loud (P := P) (C := C) (relaxLoop cw ls st)
  | [], _ => loud_pure _
  | l :: ls, st => by
    unfold relaxLoop
    exact loud_bind (loud_relaxLit _ _ _) fun _ => loud_relaxLoop cw ls _

theorem loud_handleCore {m : Nat} (base : List Lit) (st : OllState D) (core : List Lit) :
    Loud (P := P) (C := C) (handleCore m base st core) := by
  unfold handleCore
  refine loud_bind (loud_minimizeCore _ _) fun _ => loud_bind (loud_trimCore _ _) fun _ => loud_bind (loud_unwrap _) fun cw => ?_
  refine loud_bind loud_isDebug fun _ => loud_bind (loud_unwrap _) fun _ => loud_bind (loud_logEvent _) fun _ => ?_
  exact loud_bind (loud_relaxLoop _ _ _) fun _ => loud_bind (loud_dbg _) fun _ => loud_ite (fun _ => loud_pure _) fun _ => loud_pure _

theorem loud_reformCore (base : List Lit) (st : OllState D) (c : CoreData) :
    Loud (P := P) (C := C) (reformCore base st c) := by
  unfold reformCore
  refine loud_bind (loud_unwrap _) fun slice => ?_
  dsimp only
  refine loud_bind (loud_exhaustCore _ _ _) fun r => loud_bind ?_ fun _ => ?_
  · exact loud_ite (fun _ => loud_bind loud_isDebug fun _ => loud_bind (loud_unwrap _) fun _ => loud_bind (loud_logEvent _) fun _ =>
      loud_pure _) fun _ => loud_pure _
  · exact loud_ite (fun _ => loud_bind (loud_insert _ _ _) fun _ => loud_pure _) fun _ => loud_pure _

theorem loud_reformCores (base : List Lit) : ∀ (cs : List CoreData) (st : OllState D),
    Loud (P := P) (C := C) (reformCores base cs st)
  | [], _ => loud_pure _
  | c :: cs, st => by
    unfold reformCores
    exact loud_bind (loud_reformCore _ _ _) fun _ => loud_reformCores base cs _

theorem loud_reserveOutputs : ∀ (ps : List (Lit × ReformData)) (d : D),
    Loud (P := P) (C := C) (reserveOutputs ps d)
  | [], _ => loud_pure _
  | p :: ps, d => by
    have ih := loud_reserveOutputs ps
    unfold reserveOutputs
    refine loud_getS fun k io encs front fence => ?_
    dsimp only
    refine loud_bind ?_ fun _ => ih _
    loud_auto

theorem loud_ollBody {m : Nat} (sorted base : List Lit) (exactRef : Bool) (st : OllState D) :
    Loud (P := P) (C := C) (ollBody m sorted base exactRef st) := by
  unfold ollBody
  refine loud_bind (loud_ollPrepare _ _) fun r => loud_bind (loud_solveAssumps _) fun res => ?_
  cases res with
  | interrupted => exact loud_stop _
  | sat =>
    refine loud_ite (fun _ => ?_) fun _ => loud_bind (loud_reformCores _ _ _) fun _ => loud_pure _
    refine loud_bind loud_oracleSolution fun _ => loud_ite (fun _ => loud_bind (loud_reserveOutputs _ _) fun _ => ?_) fun _ => ?_
    · exact loud_bind loud_end fun _ => loud_pure _
    · exact loud_bind (loud_pure _) fun _ => loud_bind loud_end fun _ => loud_pure _
  | unsat =>
    exact loud_bind loud_oracleCore fun _ => loud_ite (fun _ => loud_bind loud_end fun _ => loud_pure _) fun _ =>
      loud_bind (loud_handleCore _ _ _) fun _ => loud_pure _

theorem loud_oll {m : Nat} (reform : Reform) (base : List Lit) (d : D) (exactRef : Bool) :
    Loud (P := P) (C := C) (oll m reform base d exactRef) := by
  unfold oll
  refine loud_ite (fun _ => loud_bind (loud_solveAssumps _) fun res => ?_) fun _ => ?_
  · cases res with
    | sat => exact loud_bind loud_oracleSolution fun _ => loud_pure _
    | unsat => exact loud_pure _
    | interrupted => exact loud_stop _
  · exact loud_bind (loud_start _) fun _ => loud_loop (loud_ollBody _ _ _) _

/-! ## Core boosting -/

theorem loud_coreBoostLoop {m : Nat} : ∀ (n i : Nat) (acc : List (Reform × D)),
    Loud (P := P) (C := C) (coreBoostLoop D m n i acc)
  | 0, _, _ => loud_pure _
  | n + 1, i, acc => by
    have ih := loud_coreBoostLoop (m := m) n
    unfold coreBoostLoop
    refine loud_getS fun k io encs front fence => loud_bind (loud_unwrap _) fun o => loud_bind ?_ fun r => ?_
    · refine loud_ite (fun _ => loud_pure _) fun _ => loud_bind (loud_oll _ _ _ _) fun r => ?_
      cases r.1 with
      | some _ => exact loud_pure _
      | none => exact loud_pure _
    · cases r with
      | none => exact loud_pure _
      | some p =>
        refine loud_bind ?_ fun _ => ih _ _
        unfold setLowerBoundAt
        loud_auto

theorem loud_kernelCoreBoost {m : Nat} :
    Loud (P := P) (C := C) (kernelCoreBoost D m) := by
  unfold kernelCoreBoost
  refine loud_bind (loud_start _) fun _ => loud_getS fun k io encs front fence => ?_
  dsimp only
  exact loud_bind (loud_coreBoostLoop _ _ _) fun _ => loud_bind loud_end fun _ => loud_bind (loud_logEvent _) fun _ => loud_pure _

variable [MergeEnc P C D]

theorem loud_mergeCons (cons : List NodeCon) (d : D) (offset mlw : Nat) :
    Loud (P := P) (C := C) (mergeCons cons d offset mlw) := by
  unfold mergeCons
  exact loud_ite (fun _ => loud_ite (fun _ => loud_pure _) fun _ => loud_bind (loud_dbg _) fun _ => loud_pure _) fun _ => loud_pure _

theorem loud_litCons (refs : List (Lit × ReformData)) (rebase : Bool) (d : D) (p : Lit × Nat) :
    Loud (P := P) (C := C) (litCons refs rebase d p) := by
  unfold litCons
  cases mapGet p.1 refs with
  | some rd =>
    exact loud_bind (loud_dbg _) fun _ => loud_bind (loud_dbg _) fun _ => loud_ite (fun _ => loud_pure _) fun _ =>
      loud_ite (fun _ => loud_pure _) fun _ => loud_pure _
  | none => exact loud_pure _

theorem loud_mergeLoop (refs : List (Lit × ReformData)) (rebase : Bool) : ∀ (ps : List (Lit × Nat)) (cons : List NodeCon) (d : D),
    Loud (P := P) (C := C) (mergeLoop refs rebase ps cons d)
  | [], _, _ => loud_pure _
  | p :: ps, cons, d => by
    unfold mergeLoop
    exact loud_bind (loud_litCons _ _ _ _) fun _ => loud_mergeLoop refs rebase ps _ _

theorem loud_mergeReform (reform : Reform) (d : D) (rebase : Bool) :
    Loud (P := P) (C := C) (mergeReform reform d rebase) := by
  unfold mergeReform
  exact loud_ite (fun _ => loud_pure _) fun _ => loud_bind (loud_mergeLoop _ _ _ _ _) fun _ => loud_mergeCons _ _ _ _

theorem loud_replaceEncs (rebase reset : Bool) : ∀ (rs : List (Reform × D)) (i : Nat),
    Loud (P := P) (C := C) (replaceEncs rebase reset i rs)
  | [], _ => loud_pure _
  | (reform, d) :: rs, i => by
    have ih := loud_replaceEncs rebase reset rs (i + 1)
    unfold replaceEncs
    refine loud_getS fun k io encs front fence => loud_bind (loud_unwrap _) fun o => ?_
    have hend : Loud (P := P) (C := C) (do checkTermination; replaceEncs rebase reset (i + 1) rs) := loud_bind loud_checkTermination fun _ => ih
    refine loud_ite (fun _ => loud_bind (loud_pure _) fun _ => hend) fun _ => ?_
    refine loud_bind (loud_mergeReform _ _ _) fun e => loud_getS fun k io encs front fence =>
      loud_bind (loud_unwrap _) fun _ => loud_bind ?_ fun _ => hend
    loud_auto

theorem loud_coreBoost {m : Nat} (opts : CbOptions) :
    Loud (P := P) (C := C) (coreBoost D m opts) := by
  unfold coreBoost
  refine loud_getS fun k io encs front fence => ?_
  dsimp only
  refine loud_ite (fun _ => loud_stop _) fun _ => loud_bind (loud_kernelCoreBoost) fun r => ?_
  cases r with
  | none => exact loud_pure _
  | some res =>
    have hend : Loud (P := P) (C := C) (do
          logRoutineStart "merge encodings"
          replaceEncs opts.rebase (opts.after = .reset) 0 res
          logRoutineEnd
          M.pure true) :=
      loud_bind (loud_start _) fun _ => loud_bind (loud_replaceEncs _ _ _ _) fun _ => loud_bind loud_end fun _ => loud_pure _
    refine loud_bind loud_checkTermination fun _ => loud_bind (loud_ite (fun _ => ?_) fun _ => loud_pure _) fun _ => hend
    exact loud_bind (loud_resetOracle _) fun _ => loud_checkTermination

end Cores

/-! ## Whole calls -/

theorem loud_solve (alg : Alg) (n : Nat) (limits : Limits) (env : Env) (s : Slv P C) :
    (alg.solve n limits env s).1 = .error .error ∨
    limits.pps ≠ none ∧ ((alg.solve n limits env s).1 = .error (.terminated .ppLimit) ∨ (alg.solve n limits env s).1 = .error .panic) ∨
    alg.solve n limits env s = alg.solve n limits env.safe s := by
  cases alg
  · exact (loud_pminMain (m := n) env (startSolving limits env s).2).imp_right fun h => h.imp_right And.left
  · exact (loud_lbMain (m := n) env (startSolving limits env s).2).imp_right fun h => h.imp_right And.left
  · exact (loud_bioptsat (m := n) 0 1 [] none none none (fun _ => none) env (startSolving limits env s).2).imp_right
      fun h => h.imp_right And.left

end Scuttle
