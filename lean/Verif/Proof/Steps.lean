import Verif.Proof.Inv
import Verif.SpecIo

/-!
# Rules for the functions of the kernel that do not search
-/

set_option linter.unusedSectionVars false

namespace Scuttle

open Spec

variable {P C : Type} {env : Env} {E : Stop → Slv P C → Prop} {s : Slv P C}

/-! ## Assumptions on the environment -/

/-- Contract of the SAT oracle. A model satisfies clauses and assumptions. A core consists of negated assumptions and is
implied by the clauses. Without conflict limit, `Interrupted` is only returned if the termination flag has been set
(`Interrupter::interrupt` sets the flag before interrupting the oracle, `/repo/core/src/algs.rs:149-152`), which stays
set. Flipping a literal keeps a model one and the values of other frozen variables. -/
structure OracleOK (env : Env) : Prop where
  sat : ∀ t lim db as m, env.oracle t lim db as = .sat m → cnfEval m db = true ∧ cubeEval m as = true
  unsat : ∀ t lim db as core, env.oracle t lim db as = .unsat core →
    (∀ l ∈ core, l.not ∈ as) ∧ ∀ m, cnfEval m db = true → clauseEval m core = true
  interrupted : ∀ t db as, env.oracle t false db as = .interrupted → ∀ t', t < t' → env.flag t' = true
  flip : ∀ t db frozen m l m', env.flip t db frozen m l = some m' → cnfEval m db = true →
    cnfEval m' db = true ∧ l.eval m' = true ∧ ∀ v ∈ frozen, v ≠ l.var → m' v = m v

/-- The logger fails at some time. -/
def LogFail (env : Env) : Prop := ∃ t, env.logOk t = false

/-- No limit is zero. -/
structure LimsPos (l : Limits) : Prop where
  pps : l.pps ≠ some 0
  sols : l.sols ≠ some 0
  candidates : l.candidates ≠ some 0
  oracleCalls : l.oracleCalls ≠ some 0

/-! ### Candidates in the log -/

theorem candidates_append (l l' : List LogEvent) : candidates (l ++ l') = candidates l ++ candidates l' :=
  List.filterMap_append

/-- The event is not a candidate found by minimization. -/
def LogEvent.Plain (e : LogEvent) : Prop := ∀ c, e ≠ .candidate c .minimization

/-- The last candidate in the log. -/
def lastCandidate (l : List LogEvent) : Option (List Nat) := ((candidates l).getLast?).map (·.1)

/-- What can be added to the log: candidates of a minimization improve on the last candidate. -/
def Loggable (l : List LogEvent) (e : LogEvent) : Prop :=
  ∀ c, e = .candidate c .minimization → ∃ b, lastCandidate l = some b ∧ Improves c b

theorem LogEvent.Plain.loggable {e : LogEvent} (h : e.Plain) (l : List LogEvent) : Loggable l e :=
  fun c hc => absurd hc (h c)

theorem _root_.Scuttle.Spec.MinimizationImproves.snoc {l : List LogEvent} {e : LogEvent} (h : MinimizationImproves l)
    (he : Loggable l e) : MinimizationImproves (l ++ [e]) := by
  by_cases hc : ∃ c ph, e = .candidate c ph
  · obtain ⟨c, ph, rfl⟩ := hc
    have hcs : candidates (l ++ [.candidate c ph]) = candidates l ++ [(c, ph)] := by rw [candidates_append]; rfl
    constructor
    · intro c' hc'
      rw [hcs] at hc'
      by_cases h0 : candidates l = []
      · rw [h0] at hc'
        simp only [List.nil_append, List.getElem?_cons_zero, Option.some.injEq, Prod.mk.injEq] at hc'
        obtain ⟨rfl, rfl⟩ := hc'
        obtain ⟨b, hb, _⟩ := he c rfl
        rw [lastCandidate, h0] at hb
        simp at hb
      · rw [List.getElem?_append_left (List.length_pos_iff.2 h0)] at hc'
        exact h.first c' hc'
    · intro i c' hc'
      rw [hcs] at hc' ⊢
      by_cases hi : i + 1 < (candidates l).length
      · rw [List.getElem?_append_left hi] at hc'
        rw [List.getElem?_append_left (by omega)]
        exact h.next i c' hc'
      · rw [List.getElem?_append_right (by omega)] at hc'
        have hi' : i + 1 = (candidates l).length := by
          by_contra hne
          rw [show i + 1 - (candidates l).length = (i - (candidates l).length) + 1 by omega] at hc'
          simp at hc'
        rw [hi', Nat.sub_self] at hc'
        simp only [List.getElem?_cons_zero, Option.some.injEq, Prod.mk.injEq] at hc'
        obtain ⟨rfl, rfl⟩ := hc'
        obtain ⟨b, hb, hb'⟩ := he c rfl
        rw [lastCandidate, Option.map_eq_some_iff] at hb
        obtain ⟨⟨b', ph⟩, h1, rfl⟩ := hb
        rw [List.getLast?_eq_getElem?, show (candidates l).length - 1 = i by omega] at h1
        exact ⟨b', ph, by rw [List.getElem?_append_left (by omega)]; exact h1, hb'⟩
  · have hcs : candidates (l ++ [e]) = candidates l := by
      rw [candidates_append]
      cases e <;> first | exact absurd ⟨_, _, rfl⟩ hc | simp [candidates]
    exact ⟨by rw [hcs]; exact h.first, by rw [hcs]; exact h.next⟩

theorem lastCandidate_snoc (l : List LogEvent) (c : List Nat) (ph : Phase) :
    lastCandidate (l ++ [.candidate c ph]) = some c := by
  unfold lastCandidate
  rw [candidates_append, show candidates [LogEvent.candidate c ph] = [(c, ph)] from rfl]
  simp

theorem lastCandidate_other (l : List LogEvent) {e : LogEvent} (h : ∀ c ph, e ≠ .candidate c ph) :
    lastCandidate (l ++ [e]) = lastCandidate l := by
  unfold lastCandidate
  rw [candidates_append]
  cases e <;> first | exact absurd rfl (h _ _) | simp [candidates]

/-- In the log, if there is one, each minimization improves. -/
def LogOk (lg : Option (List LogEvent)) : Prop := ∀ l, lg = some l → MinimizationImproves l

theorem LogOk.none : LogOk none := fun _ h => by cases h

theorem LogOk.empty : LogOk (some []) := fun l h => by
  cases h
  exact ⟨by simp [candidates], by simp [candidates]⟩

/-- The number of objectives is `n`, and the log is fine. -/
def IoBase (n : Nat) (io : Io) : Prop := io.stats.nObjs = n ∧ LogOk io.logger

theorem IoBase.keep {n : Nat} {io io' : Io} (h : IoBase n io) (h1 : io'.stats = io.stats) (h2 : io'.logger = io.logger) :
    IoBase n io' := ⟨by rw [h1]; exact h.1, by rw [h2]; exact h.2⟩

/-- Invariant on limits and statistics: the number of objectives is `n`, and in a debug build no limit is zero. -/
structure IoInv (env : Env) (n : Nat) (io : Io) : Prop where
  base : IoBase n io
  lims : env.debug = true → LimsPos io.lims

/-- Ways in which logging and termination checks stop. -/
def IoStop (env : Env) (n : Nat) (e : Stop) (s : Slv P C) : Prop :=
  IoBase n s.io ∧ match e with
    | .terminated _ => True
    | .error => LogFail env
    | .panic => False
    | .fuel => False

/-- As `IoStop`, but not because of the limits on solutions and non-dominated points. -/
def IoStopQ (env : Env) (n : Nat) (e : Stop) (s : Slv P C) : Prop :=
  IoStop env n e s ∧ e ≠ .terminated .ppLimit ∧ e ≠ .terminated .solsLimit

/-- The states differ in `io` and in the state of the oracle only. -/
structure Same (s s' : Slv P C) : Prop where
  k : s'.k = { s.k with ostate := s'.k.ostate }
  encs : s'.encs = s.encs
  front : s'.front = s.front
  fence : s'.fence = s.fence

theorem Same.refl (s : Slv P C) : Same s s := ⟨rfl, rfl, rfl, rfl⟩

theorem Same.trans {s s' s'' : Slv P C} (h : Same s s') (h' : Same s' s'') : Same s s'' :=
  ⟨by rw [h'.k, h.k], h'.encs.trans h.encs, h'.front.trans h.front, h'.fence.trans h.fence⟩

theorem Same.db {s s' : Slv P C} (h : Same s s') : s'.k.db = s.k.db := by rw [h.k]
theorem Same.objs {s s' : Slv P C} (h : Same s s') : s'.k.objs = s.k.objs := by rw [h.k]
theorem Same.vm {s s' : Slv P C} (h : Same s s') : s'.k.vm = s.k.vm := by rw [h.k]
theorem Same.opts {s s' : Slv P C} (h : Same s s') : s'.k.opts = s.k.opts := by rw [h.k]
theorem Same.bcg {s s' : Slv P C} (h : Same s s') : s'.k.bcg = s.k.bcg := by rw [h.k]
theorem Same.origCnf {s s' : Slv P C} (h : Same s s') : s'.k.origCnf = s.k.origCnf := by rw [h.k]
theorem Same.lim {s s' : Slv P C} (h : Same s s') : s'.k.conflLimited = s.k.conflLimited := by rw [h.k]

/-! ## Logging -/

theorem wp_logEvent' {n : Nat} {Q : Unit → Slv P C → Prop} (e : LogEvent) (hio : IoInv env n s.io)
    (hl : ∀ l, s.io.logger = some l → Loggable l e)
    (hQ : ∀ s', Same s s' → s'.k = s.k → IoInv env n s'.io → s'.io.logger = s.io.logger.map (· ++ [e]) → Q () s')
    (hE : ∀ e s', Same s s' → IoStopQ env n e s' → E e s') : wp env (logEvent e) Q E s := by
  unfold wp logEvent
  cases hlg : s.io.logger with
  | none => exact hQ s (Same.refl s) rfl hio (by rw [hlg]; rfl)
  | some l =>
    simp only
    by_cases ht : env.logOk s.io.tick = true
    · simp only [ht, if_true]
      refine hQ _ ⟨rfl, rfl, rfl, rfl⟩ rfl ⟨⟨hio.base.1, ?_⟩, hio.lims⟩ (by rw [hlg]; rfl)
      intro l' hl'
      simp only [Option.some.injEq] at hl'
      subst hl'
      exact (hio.base.2 l hlg).snoc (hl l hlg)
    · simp only [ht]
      exact hE _ _ ⟨rfl, rfl, rfl, rfl⟩ ⟨⟨hio.base, s.io.tick, by simpa using ht⟩, by simp, by simp⟩

theorem wp_logEvent {n : Nat} {Q : Unit → Slv P C → Prop} (e : LogEvent) (hio : IoInv env n s.io)
    (hQ : ∀ s', Same s s' → s'.k = s.k → IoInv env n s'.io → Q () s')
    (hE : ∀ e s', Same s s' → IoStopQ env n e s' → E e s') (hp : e.Plain := by intro _ h; cases h) :
    wp env (logEvent e) Q E s :=
  wp_logEvent' e hio (fun l _ => hp.loggable l) (fun s' h1 h2 h3 _ => hQ s' h1 h2 h3) hE

theorem wp_checkTermination {n : Nat} {Q : Unit → Slv P C → Prop} (hio : IoInv env n s.io)
    (hQ : ∀ s', Same s s' → s'.k = s.k → IoInv env n s'.io → env.flag s.io.tick = false → Q () s')
    (hE : ∀ e s', Same s s' → IoStopQ env n e s' → E e s') : wp env checkTermination Q E s := by
  unfold wp checkTermination
  by_cases ht : env.flag s.io.tick = true
  · simp only [ht, if_true]
    exact hE _ _ ⟨rfl, rfl, rfl, rfl⟩ ⟨⟨hio.base, trivial⟩, by simp, by simp⟩
  · simp only [ht]
    exact hQ _ ⟨rfl, rfl, rfl, rfl⟩ rfl ⟨hio.base, hio.lims⟩ (by simpa using ht)

theorem countDown_pos {d : Bool} {l : Option Nat} (h : d = true → l ≠ some 0) :
    ∃ l' hit, countDown d l = some (l', hit) ∧ (hit = false → d = true → l' ≠ some 0) := by
  cases l with
  | none => exact ⟨none, false, rfl, by simp⟩
  | some k =>
    cases k with
    | zero =>
      cases d with
      | true => exact absurd rfl (h rfl)
      | false => exact ⟨some usizeMax, false, rfl, by simp⟩
    | succ k =>
      refine ⟨some k, k == 0, rfl, ?_⟩
      intro hk _ h0
      simp only [Option.some.injEq] at h0
      simp [h0] at hk

theorem wp_stepLimit {Q : Unit → Slv P C → Prop} (get : Limits → Option Nat)
    (set : Option Nat → Limits → Limits) (t : Termination)
    (hg : env.debug = true → get s.io.lims ≠ some 0)
    (hQ : ∀ l s', Same s s' → s'.k = s.k → s'.io.stats = s.io.stats → s'.io.logger = s.io.logger →
      s'.io.lims = set l s.io.lims → (env.debug = true → l ≠ some 0) → Q () s')
    (hE : ∀ l s', Same s s' → s'.io.stats = s.io.stats → s'.io.logger = s.io.logger → s'.io.lims = set l s.io.lims →
      E (.terminated t) s') : wp env (stepLimit get set t) Q E s := by
  unfold wp stepLimit
  obtain ⟨l', hit, h1, h2⟩ := countDown_pos hg
  simp only [h1]
  cases hit with
  | true => simp only [if_true]; exact hE l' _ ⟨rfl, rfl, rfl, rfl⟩ rfl rfl rfl
  | false =>
    simp only [Bool.false_eq_true, if_false]
    exact hQ l' _ ⟨rfl, rfl, rfl, rfl⟩ rfl rfl rfl rfl (h2 rfl)

theorem wp_bumpStats {Q : Unit → Slv P C → Prop} (f : Stats → Stats)
    (hQ : ∀ s', Same s s' → s'.k = s.k → s'.io.lims = s.io.lims → s'.io.stats = f s.io.stats →
      s'.io.logger = s.io.logger → Q () s') :
    wp env (bumpStats f) Q E s := by
  unfold bumpStats
  rw [wp_modifyS]
  exact hQ _ ⟨rfl, rfl, rfl, rfl⟩ rfl rfl rfl rfl

theorem wp_logCandidate {n : Nat} {Q : Unit → Slv P C → Prop} (costs : List Nat) (ph : Phase) (hc : costs.length = n)
    (hio : IoInv env n s.io)
    (hQ : ∀ s', Same s s' → s'.k = s.k → IoInv env n s'.io → (∀ l, s'.io.logger = some l → lastCandidate l = some costs) →
      Q () s')
    (hE : ∀ e s', Same s s' → IoStopQ env n e s' → E e s')
    (hl : ph = .minimization → ∀ l, s.io.logger = some l → ∃ b, lastCandidate l = some b ∧ Improves costs b := by
      intro h; cases h) : wp env (logCandidate costs ph) Q E s := by
  unfold logCandidate
  rw [wp_bind, wp_getS, wp_bind]
  refine wp_dbg (by simp [hc, hio.base.1]) ?_
  rw [wp_bind]
  refine wp_bumpStats _ fun s1 h1 hk1 hl1 hs1 hg1 => ?_
  have hio1 : IoInv env n s1.io := ⟨⟨by rw [hs1]; exact hio.base.1, by rw [hg1]; exact hio.base.2⟩, by rw [hl1]; exact hio.lims⟩
  rw [wp_bind]
  refine wp_logEvent' _ hio1 (fun l h c hc => ?_) (fun s2 h2 hk2 hio2 hg2 => ?_) (fun e s' h he => hE e s' (h1.trans h) he)
  · cases hc
    exact hl rfl l (by rw [← hg1]; exact h)
  refine wp_stepLimit _ _ _ (fun hd => (hio2.lims hd).candidates) ?_ ?_
  · intro l s3 h3 hk3 hs3 hg3 hl3 hp
    refine hQ s3 ((h1.trans h2).trans h3) (by rw [hk3, hk2, hk1]) ⟨hio2.base.keep hs3 hg3, fun hd => ?_⟩ ?_
    · rw [hl3]
      have := hio2.lims hd
      exact ⟨this.pps, this.sols, hp hd, this.oracleCalls⟩
    · intro l' hl'
      rw [hg3, hg2, Option.map_eq_some_iff] at hl'
      obtain ⟨l0, -, rfl⟩ := hl'
      exact lastCandidate_snoc l0 costs ph
  · intro l s3 h3 hs3 hg3 _
    exact hE _ s3 ((h1.trans h2).trans h3) ⟨⟨hio2.base.keep hs3 hg3, trivial⟩, by simp, by simp⟩

theorem wp_logOracleCall {n : Nat} {Q : Unit → Slv P C → Prop} (res : SolverResult)
    (hio : IoInv env n s.io) (hQ : ∀ s', Same s s' → s'.k = s.k → IoInv env n s'.io → Q () s')
    (hE : ∀ e s', Same s s' → IoStopQ env n e s' → E e s') : wp env (logOracleCall res) Q E s := by
  unfold logOracleCall
  rw [wp_bind]
  refine wp_bumpStats _ fun s1 h1 hk1 hl1 hs1 hg1 => ?_
  have hio1 : IoInv env n s1.io := ⟨⟨by rw [hs1]; exact hio.base.1, by rw [hg1]; exact hio.base.2⟩, by rw [hl1]; exact hio.lims⟩
  rw [wp_bind]
  refine wp_logEvent _ hio1 (fun s2 h2 hk2 hio2 => ?_) (fun e s' h he => hE e s' (h1.trans h) he)
  refine wp_stepLimit _ _ _ (fun hd => (hio2.lims hd).oracleCalls) ?_ ?_
  · intro l s3 h3 hk3 hs3 hg3 hl3 hp
    refine hQ s3 ((h1.trans h2).trans h3) (by rw [hk3, hk2, hk1]) ⟨hio2.base.keep hs3 hg3, fun hd => ?_⟩
    rw [hl3]
    have := hio2.lims hd
    exact ⟨this.pps, this.sols, this.candidates, hp hd⟩
  · intro l s3 h3 hs3 hg3 _
    exact hE _ s3 ((h1.trans h2).trans h3) ⟨⟨hio2.base.keep hs3 hg3, trivial⟩, by simp, by simp⟩

/-- `log_solution`; if it stops, the limit on non-dominated points is still positive. -/
theorem wp_logSolution {n : Nat} {Q : Unit → Slv P C → Prop}
    (hio : IoInv env n s.io) (hQ : ∀ s', Same s s' → s'.k = s.k → IoInv env n s'.io → Q () s')
    (hE : ∀ e s', Same s s' → IoStop env n e s' → (env.debug = true → s'.io.lims.pps ≠ some 0) → E e s') :
    wp env logSolution Q E s := by
  unfold logSolution
  rw [wp_bind]
  refine wp_bumpStats _ fun s1 h1 hk1 hl1 hs1 hg1 => ?_
  have hio1 : IoInv env n s1.io := ⟨⟨by rw [hs1]; exact hio.base.1, by rw [hg1]; exact hio.base.2⟩, by rw [hl1]; exact hio.lims⟩
  rw [wp_bind]
  have hlog : wp env (logEvent .solution)
      (fun _ s2 => Same s1 s2 ∧ s2.k = s1.k ∧ IoInv env n s2.io)
      (fun e s2 => Same s1 s2 ∧ IoStop env n e s2 ∧ (env.debug = true → s2.io.lims.pps ≠ some 0)) s1 := by
    unfold wp logEvent
    cases hl : s1.io.logger with
    | none => exact ⟨Same.refl _, rfl, hio1⟩
    | some l =>
      simp only
      by_cases ht : env.logOk s1.io.tick = true
      · simp only [ht, if_true]
        refine ⟨⟨rfl, rfl, rfl, rfl⟩, trivial, ⟨hio1.base.1, fun l' hl' => ?_⟩, hio1.lims⟩
        simp only [Option.some.injEq] at hl'
        subst hl'
        exact (hio1.base.2 l hl).snoc (LogEvent.Plain.loggable (by intro _ h; cases h) l)
      · simp only [ht]
        exact ⟨⟨rfl, rfl, rfl, rfl⟩, ⟨hio1.base, s1.io.tick, by simpa using ht⟩, fun hd => (hio1.lims hd).pps⟩
  refine wp_mono hlog ?_ ?_
  · rintro _ s2 ⟨h2, hk2, hio2⟩
    refine wp_stepLimit _ _ _ (fun hd => (hio2.lims hd).sols) ?_ ?_
    · intro l s3 h3 hk3 hs3 hg3 hl3 hp
      refine hQ s3 ((h1.trans h2).trans h3) (by rw [hk3, hk2, hk1]) ⟨hio2.base.keep hs3 hg3, fun hd => ?_⟩
      rw [hl3]
      have := hio2.lims hd
      exact ⟨this.pps, hp hd, this.candidates, this.oracleCalls⟩
    · intro l s3 h3 hs3 hg3 hl3
      refine hE _ s3 ((h1.trans h2).trans h3) ⟨hio2.base.keep hs3 hg3, trivial⟩ fun hd => ?_
      rw [hl3]; exact (hio2.lims hd).pps
  · rintro e s2 ⟨h2, he, hp⟩
    exact hE e s2 (h1.trans h2) he hp

theorem wp_logNonDominated {n : Nat} {Q : Unit → Slv P C → Prop} (p : NonDomPoint Assignment)
    (hn : IoBase n s.io) (hp : env.debug = true → s.io.lims.pps ≠ some 0)
    (hQ : ∀ s', Same s s' → s'.k = s.k → IoBase n s'.io →
      ((env.debug = true → LimsPos s.io.lims) → IoInv env n s'.io) → Q () s')
    (hE : ∀ e s', Same s s' → IoStop env n e s' → E e s') : wp env (logNonDominated p) Q E s := by
  unfold logNonDominated
  rw [wp_bind]
  refine wp_bumpStats _ fun s1 h1 hk1 hl1 hs1 hg1 => ?_
  have hn1 : IoBase n s1.io := ⟨by rw [hs1]; exact hn.1, by rw [hg1]; exact hn.2⟩
  rw [wp_bind]
  have hlog : wp env (logEvent (.nonDominated p))
      (fun _ s2 => Same s1 s2 ∧ s2.k = s1.k ∧ IoBase n s2.io ∧ s2.io.lims = s1.io.lims)
      (fun e s2 => Same s1 s2 ∧ IoStop env n e s2) s1 := by
    unfold wp logEvent
    cases hl : s1.io.logger with
    | none => exact ⟨Same.refl _, rfl, hn1, rfl⟩
    | some l =>
      simp only
      by_cases ht : env.logOk s1.io.tick = true
      · simp only [ht, if_true]
        refine ⟨⟨rfl, rfl, rfl, rfl⟩, trivial, ⟨hn1.1, fun l' hl' => ?_⟩, trivial⟩
        simp only [Option.some.injEq] at hl'
        subst hl'
        exact (hn1.2 l hl).snoc (LogEvent.Plain.loggable (by intro _ h; cases h) l)
      · simp only [ht]
        exact ⟨⟨rfl, rfl, rfl, rfl⟩, hn1, s1.io.tick, by simpa using ht⟩
  refine wp_mono hlog ?_ ?_
  · rintro _ s2 ⟨h2, hk2, hs2, hl2⟩
    refine wp_stepLimit _ _ _ (fun hd => by rw [hl2, hl1]; exact hp hd) ?_ ?_
    · intro l s3 h3 hk3 hs3 hg3 hl3 hp3
      refine hQ s3 ((h1.trans h2).trans h3) (by rw [hk3, hk2, hk1]) (hs2.keep hs3 hg3) fun hl => ?_
      refine ⟨hs2.keep hs3 hg3, fun hd => ?_⟩
      rw [hl3, hl2, hl1]
      have := hl hd
      exact ⟨hp3 hd, this.sols, this.candidates, this.oracleCalls⟩
    · intro l s3 h3 hs3 hg3 hl3
      exact hE _ s3 ((h1.trans h2).trans h3) ⟨hs2.keep hs3 hg3, trivial⟩
  · rintro e s2 ⟨h2, he⟩
    exact hE e s2 (h1.trans h2) he

/-! ## The oracle -/

/-- Rule for calls of the oracle, also with a limit on conflicts. -/
theorem wp_solveAssumpsL {n : Nat} {Q : SolverResult → Slv P C → Prop} (orc : OracleOK env) (assumps : List Lit)
    (hio : IoInv env n s.io)
    (hsat : ∀ m s', Same s s' → s'.k.ostate = .sat m → IoInv env n s'.io → cnfEval m s.k.db = true →
      cubeEval m assumps = true → Q .sat s')
    (hunsat : ∀ t lim core s', env.oracle t lim s.k.db assumps = .unsat core → Same s s' → s'.k.ostate = .unsat core →
      IoInv env n s'.io → (∀ l ∈ core, l.not ∈ assumps) →
      (∀ m, cnfEval m s.k.db = true → clauseEval m core = true) → Q .unsat s')
    (hint : s.k.conflLimited = true → ∀ s', Same s s' → IoInv env n s'.io → Q .interrupted s')
    (hE : ∀ e s', Same s s' → IoStopQ env n e s' → E e s') : wp env (solveAssumps assumps) Q E s := by
  unfold solveAssumps
  rw [wp_bind]
  refine wp_logEvent _ hio (fun s1 h1 hk1 hio1 => ?_) hE
  rw [wp_bind]
  -- the call of the oracle
  have horc : wp env (oracleSolve assumps : M P C SolverResult)
      (fun r s2 => Same s1 s2 ∧ IoInv env n s2.io ∧ s2.io.tick = s1.io.tick + 1 ∧ match r with
        | .sat => ∃ m, s2.k.ostate = .sat m ∧ cnfEval m s.k.db = true ∧ cubeEval m assumps = true
        | .unsat => ∃ t lim core, env.oracle t lim s.k.db assumps = .unsat core ∧ s2.k.ostate = .unsat core ∧ (∀ l ∈ core, l.not ∈ assumps) ∧
            (∀ m, cnfEval m s.k.db = true → clauseEval m core = true)
        | .interrupted => s.k.conflLimited = false → ∀ t', s1.io.tick < t' → env.flag t' = true)
      (fun _ _ => False) s1 := by
    unfold wp oracleSolve
    have hdb : s1.k.db = s.k.db := h1.db
    cases ha : env.oracle s1.io.tick s1.k.conflLimited s1.k.db assumps with
    | sat m =>
      obtain ⟨h2, h3⟩ := orc.sat _ _ _ _ _ ha
      rw [hdb] at h2
      exact ⟨⟨rfl, rfl, rfl, rfl⟩, ⟨hio1.base, hio1.lims⟩, rfl, m, rfl, h2, h3⟩
    | unsat core =>
      obtain ⟨h2, h3⟩ := orc.unsat _ _ _ _ _ ha
      rw [hdb] at h3 ha
      exact ⟨⟨rfl, rfl, rfl, rfl⟩, ⟨hio1.base, hio1.lims⟩, rfl, _, _, core, ha, rfl, h2, h3⟩
    | interrupted =>
      refine ⟨⟨rfl, rfl, rfl, rfl⟩, ⟨hio1.base, hio1.lims⟩, rfl, fun hlim => ?_⟩
      rw [show s1.k.conflLimited = false by rw [h1.lim]; exact hlim] at ha
      exact orc.interrupted _ _ _ ha
  refine wp_mono horc ?_ (fun _ _ h => h.elim)
  rintro r s2 ⟨h2, hio2, ht2, hr⟩
  rw [wp_bind]
  have h12 := h1.trans h2
  -- the end of the routine, with the clock
  have hlog : wp env (logRoutineEnd : M P C Unit)
      (fun _ s3 => Same s2 s3 ∧ s3.k = s2.k ∧ IoInv env n s3.io ∧ s2.io.tick ≤ s3.io.tick)
      (fun e s3 => Same s2 s3 ∧ IoStopQ env n e s3) s2 := by
    unfold wp logRoutineEnd logEvent
    cases hl : s2.io.logger with
    | none => exact ⟨Same.refl _, rfl, hio2, Nat.le_refl _⟩
    | some l =>
      simp only
      by_cases ht : env.logOk s2.io.tick = true
      · simp only [ht, if_true]
        refine ⟨⟨rfl, rfl, rfl, rfl⟩, trivial, ⟨⟨hio2.base.1, fun l' hl' => ?_⟩, hio2.lims⟩, Nat.le_succ _⟩
        simp only [Option.some.injEq] at hl'
        subst hl'
        exact (hio2.base.2 l hl).snoc (LogEvent.Plain.loggable (by intro _ h; cases h) l)
      · simp only [ht]
        exact ⟨⟨rfl, rfl, rfl, rfl⟩, ⟨hio2.base, s2.io.tick, by simpa using ht⟩, by simp, by simp⟩
  refine wp_mono hlog ?_ (fun e s3 h => hE e s3 (h12.trans h.1) h.2)
  rintro _ s3 ⟨h3, hk3, hio3, ht3⟩
  have h13 := h12.trans h3
  rw [wp_bind]
  refine wp_checkTermination hio3 (fun s4 h4 hk4 hio4 hf => ?_) (fun e s' h he => hE e s' (h13.trans h) he)
  have h14 := h13.trans h4
  rw [wp_bind]
  refine wp_logOracleCall r hio4 (fun s5 h5 hk5 hio5 => ?_) (fun e s' h he => hE e s' (h14.trans h) he)
  have h15 := h14.trans h5
  have hos : s5.k.ostate = s2.k.ostate := by rw [hk5, hk4, hk3]
  rw [wp_pure]
  cases r with
  | sat =>
    obtain ⟨m, hm1, hm2, hm3⟩ := hr
    exact hsat m s5 h15 (hos.trans hm1) hio5 hm2 hm3
  | unsat =>
    obtain ⟨t, lim, core, hm0, hm1, hm2, hm3⟩ := hr
    exact hunsat t lim core s5 hm0 h15 (hos.trans hm1) hio5 hm2 hm3
  | interrupted =>
    by_cases hlim : s.k.conflLimited = true
    · exact hint hlim s5 h15 hio5
    · have := hr (by simpa using hlim) s3.io.tick (by omega)
      rw [hf] at this
      simp at this

theorem wp_solveAssumps {n : Nat} {Q : SolverResult → Slv P C → Prop} (orc : OracleOK env) (assumps : List Lit)
    (hlim : s.k.conflLimited = false) (hio : IoInv env n s.io)
    (hsat : ∀ m s', Same s s' → s'.k.ostate = .sat m → IoInv env n s'.io → cnfEval m s.k.db = true →
      cubeEval m assumps = true → Q .sat s')
    (hunsat : ∀ core s', Same s s' → s'.k.ostate = .unsat core → IoInv env n s'.io → (∀ l ∈ core, l.not ∈ assumps) →
      (∀ m, cnfEval m s.k.db = true → clauseEval m core = true) → Q .unsat s')
    (hE : ∀ e s', Same s s' → IoStopQ env n e s' → E e s') : wp env (solveAssumps assumps) Q E s :=
  wp_solveAssumpsL orc assumps hio hsat (fun _ _ core s' _ => hunsat core s')
    (fun h => by rw [hlim] at h; simp at h) hE

theorem wp_oracleSolution {Q : Assignment → Slv P C → Prop} {m : Asg} (hm : s.k.ostate = .sat m)
    (hn : 0 < s.k.vm.nextVar) (hQ : Q (Assignment.ofModel m s.k.vm.nextVar) s) :
    wp env oracleSolution Q E s := by
  unfold oracleSolution
  rw [wp_bind, wp_getS, wp_bind]
  have : s.k.vm.maxVar = some (s.k.vm.nextVar - 1) := by
    unfold VarManager.maxVar; rw [if_neg (by omega)]
  rw [this, wp_unwrap_some, hm]
  simp only
  rw [wp_pure, Nat.sub_add_cancel hn]
  exact hQ

theorem wp_oracleCore {Q : List Lit → Slv P C → Prop} {core : List Lit} (hm : s.k.ostate = .unsat core)
    (hQ : Q core s) : wp env oracleCore Q E s := by
  unfold oracleCore
  rw [wp_bind, wp_getS, hm]
  exact hQ

theorem wp_addClause {Q : Unit → Slv P C → Prop} (c : Clause)
    (hQ : ∀ s', s'.k = { s.k with db := s.k.db ++ [c], ostate := s'.k.ostate } → s'.encs = s.encs → s'.front = s.front →
      s'.fence = s.fence → s'.io = s.io → Q () s') : wp env (addClause c) Q E s := by
  unfold addClause
  rw [wp_modifyS]
  exact hQ _ rfl rfl rfl rfl rfl

theorem wp_addClauses {Q : Unit → Slv P C → Prop} (cs : List Clause)
    (hQ : ∀ s', s'.k = { s.k with db := s.k.db ++ cs, ostate := s'.k.ostate } → s'.encs = s.encs → s'.front = s.front →
      s'.fence = s.fence → s'.io = s.io → Q () s') : wp env (addClauses cs) Q E s := by
  induction cs generalizing s with
  | nil =>
    unfold addClauses
    rw [wp_pure]
    exact hQ s (by simp) rfl rfl rfl rfl
  | cons c cs ih =>
    unfold addClauses
    rw [wp_bind]
    refine wp_addClause c fun s1 h1 h2 h3 h4 h5 => ?_
    refine ih fun s2 g1 g2 g3 g4 g5 => ?_
    exact hQ s2 (by rw [g1, h1]; simp) (g2.trans h2) (g3.trans h3) (g4.trans h4) (g5.trans h5)

/-! ## The last candidate in the log -/

/-- If there is a log, `c` is the last candidate in it. -/
def LastIs (io : Io) (c : List Nat) : Prop := ∀ l, io.logger = some l → lastCandidate l = some c

theorem wp_keep {α : Type} {m : M P C α} {Q Q' : α → Slv P C → Prop} {E' : Stop → Slv P C → Prop} (h1 : wp env m Q' E' s)
    (h2 : wp env m (fun a s' => Q' a s' → Q a s') E s) : wp env m Q E s := by
  unfold wp at *
  cases h : m env s with
  | mk r s' =>
    rw [h] at h1 h2
    cases r with
    | ok a => exact h2 h1
    | error e => exact h2

theorem LastIs.logEvent {c : List Nat} (h : LastIs s.io c) (e : LogEvent) (he : ∀ c ph, e ≠ .candidate c ph) :
    wp env (logEvent e) (fun _ s' => LastIs s'.io c) (fun _ _ => True) s := by
  unfold wp Scuttle.logEvent
  cases hl : s.io.logger with
  | none => exact h
  | some l =>
    simp only
    by_cases ht : env.logOk s.io.tick = true
    · simp only [ht, if_true]
      intro l' hl'
      simp only [Option.some.injEq] at hl'
      subst hl'
      rw [lastCandidate_other l he]
      exact h l hl
    · simp only [ht]
      trivial

theorem LastIs.checkTermination {c : List Nat} (h : LastIs s.io c) :
    wp env checkTermination (fun _ s' => LastIs s'.io c) (fun _ _ => True) s := by
  unfold wp Scuttle.checkTermination
  by_cases ht : env.flag s.io.tick = true
  · simp only [ht, if_true]
  · simp only [ht]
    exact h

theorem LastIs.solveAssumps {c : List Nat} (h : LastIs s.io c) (as : List Lit) :
    wp env (solveAssumps as) (fun _ s' => LastIs s'.io c) (fun _ _ => True) s := by
  unfold Scuttle.solveAssumps
  rw [wp_bind]
  refine wp_mono (h.logEvent _ (by intro _ _ h; cases h)) (fun _ s1 h1 => ?_) (fun _ _ h => h)
  rw [wp_bind]
  have horc : wp env (oracleSolve as : M P C SolverResult) (fun _ s' => LastIs s'.io c) (fun _ _ => True) s1 := by
    unfold wp oracleSolve
    cases env.oracle s1.io.tick s1.k.conflLimited s1.k.db as <;> exact h1
  refine wp_mono horc (fun r s2 h2 => ?_) (fun _ _ h => h)
  rw [wp_bind]
  refine wp_mono (h2.logEvent _ (by intro _ _ h; cases h)) (fun _ s3 h3 => ?_) (fun _ _ h => h)
  rw [wp_bind]
  refine wp_mono h3.checkTermination (fun _ s4 h4 => ?_) (fun _ _ h => h)
  rw [wp_bind]
  unfold logOracleCall bumpStats
  rw [wp_bind, wp_modifyS, wp_bind]
  refine wp_mono (Q := fun _ s' => LastIs s'.io c) (E := fun _ _ => True) ?_ (fun _ s5 h5 => ?_) (fun _ _ h => h)
  · exact LastIs.logEvent (by exact h4) (.oracleCall r) (by intro _ _ h; cases h)
  unfold wp stepLimit
  cases countDown env.debug s5.io.lims.oracleCalls with
  | none => trivial
  | some p =>
    obtain ⟨l, hit⟩ := p
    cases hit
    · exact h5
    · trivial

end Scuttle
