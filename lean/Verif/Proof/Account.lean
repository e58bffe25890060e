import Verif.Proof.IoLogic
import Verif.Proof.Io
import Verif.SpecAccount

/-!
# Which oracle calls a run needs

Each oracle call is charged to a message that follows it. An invariant keeps track of the balance.
-/

set_option linter.unusedSectionVars false

namespace Scuttle

open Spec

/-- What is paid by points, solutions, starts of harvesting and moves of the fence; the largest debt; whether the balance is
known exactly; the options; and the log before the call. -/
structure AcCtx where
  point : Int
  sol : Int
  harvest : Int
  fence : Int
  max : Int
  ex : Prop
  opts : KernelOptions
  pre : List LogEvent

variable {x : AcCtx}

/-- What a message adds to the debt. -/
def AcCtx.debt (x : AcCtx) : LogEvent → Int
  | .oracleCall _ => 1
  | .candidate .. => -1
  | .nonDominated _ => -x.point
  | .solution => -x.sol
  | .fence _ => -x.fence
  | .routineStart n => if n == "harvest" then -x.harvest else 0
  | _ => 0

/-- The debt after messages. -/
def AcCtx.bal (x : AcCtx) (es : List LogEvent) : Int := (es.map x.debt).sum

/-- Solutions pay for enumeration if there is any. -/
structure AcOK (x : AcCtx) : Prop where
  point : 0 ≤ x.point
  sol : 0 ≤ x.sol
  exSol : x.ex → x.sol = 0
  enum : x.opts.enumeration = .noEnum ∨ x.sol = 1

variable {P C α β : Type} {env : Env}

/-- The invariant: the debt since the call was made is at most `b`. -/
structure AcInv (x : AcCtx) (b : Int) (s : Slv P C) : Prop where
  opts : s.k.opts = x.opts
  log : ∀ l, s.io.logger = some l → ∃ es, l = x.pre ++ es ∧ x.bal es ≤ b ∧ (x.ex → x.bal es = b)

/-- What holds when a call stops early. -/
def AcEnd (x : AcCtx) (s : Slv P C) : Prop := ∀ l, s.io.logger = some l → ∃ es, l = x.pre ++ es ∧ x.bal es ≤ x.max

variable {s s' : Slv P C} {b b' : Int}

theorem AcInv.end (h : AcInv x b s) (hb : b ≤ x.max) : AcEnd x s := fun l hl => by
  obtain ⟨es, h1, h2, -⟩ := h.log l hl
  exact ⟨es, h1, Int.le_trans h2 hb⟩

theorem AcInv.frame (h : AcInv x b s) (h1 : s'.io.logger = s.io.logger) (h2 : s'.k.opts = s.k.opts) : AcInv x b s' :=
  ⟨by rw [h2, h.opts], fun l hl => h.log l (by rw [← h1]; exact hl)⟩

theorem AcEnd.frame (h : AcEnd x s) (h1 : s'.io.logger = s.io.logger) : AcEnd x s' :=
  fun l hl => h l (by rw [← h1]; exact hl)

theorem AcInv.mono (h : AcInv x b s) (hb : b ≤ b') (he : x.ex → b = b') : AcInv x b' s :=
  ⟨h.opts, fun l hl => by
    obtain ⟨es, h1, h2, h3⟩ := h.log l hl
    exact ⟨es, h1, Int.le_trans h2 hb, fun hx => by rw [h3 hx, he hx]⟩⟩

theorem bal_append (es : List LogEvent) (e : LogEvent) : x.bal (es ++ [e]) = x.bal es + x.debt e := by
  simp [AcCtx.bal]

theorem ac_quiet (hb : b ≤ x.max) : Quiet (P := P) (C := C) (AcInv x b) (fun _ => AcEnd x) :=
  ⟨fun h1 _ h3 h => h.frame (by rw [h1]) h3.2, fun _ _ h => h.end hb⟩

theorem logEvent_k (e : LogEvent) (s : Slv P C) : (logEvent e env s).2.k = s.k := by
  unfold logEvent
  cases s.io.logger with
  | none => rfl
  | some l => dsimp only; split <;> rfl

theorem wp_logEvent_k {e : LogEvent} {Q : Unit → Slv P C → Prop} {E : Stop → Slv P C → Prop}
    (h : wp env (logEvent e) (fun a s' => s'.k = s.k → Q a s') (fun a s' => s'.k = s.k → E a s') s) :
    wp env (logEvent e) Q E s := by
  have hk := logEvent_k (env := env) e s
  unfold wp at h ⊢
  revert h hk
  rcases logEvent e env s with ⟨r, s1⟩
  cases r <;> exact fun h hk => h hk

theorem ac_event (hb : b ≤ x.max) (e : LogEvent) {c : Int} (hc : c = b + x.debt e) :
    Tr (P := P) (C := C) env (AcInv x b) (logEvent e) (fun _ => AcInv x c) (fun _ => AcEnd x) := fun s h => by
  refine wp_logEvent_k (wpio_logEvent ?_ ?_)
  · intro s' _ _ _ _ _ hl hk
    refine ⟨by rw [hk, h.opts], fun l hs => ?_⟩
    rw [Logged] at hl
    rw [hl] at hs
    cases hl0 : s.io.logger with
    | none => rw [hl0] at hs; cases hs
    | some l0 =>
      rw [hl0] at hs
      obtain ⟨es, h1, h2, h3⟩ := h.log l0 hl0
      cases hs
      refine ⟨es ++ [e], by rw [h1]; exact List.append_assoc _ _ _, ?_, fun hx => ?_⟩
      · rw [bal_append, hc]; omega
      · rw [bal_append, hc, h3 hx]
  · intro s' _ _ _ _ _ hl _ _
    exact (h.end hb).frame hl

theorem ac_same (hb : b ≤ x.max) (e : LogEvent) (he : x.debt e = 0) :
    Tr (P := P) (C := C) env (AcInv x b) (logEvent e) (fun _ => AcInv x b) (fun _ => AcEnd x) :=
  ac_event hb e (by rw [he]; omega)

theorem ac_start (hb : b ≤ x.max) {n : String} (hn : (n == "harvest") = false) :
    Tr (P := P) (C := C) env (AcInv x b) (logRoutineStart n) (fun _ => AcInv x b) (fun _ => AcEnd x) :=
  ac_same hb _ (by simp only [AcCtx.debt, hn]; rfl)

theorem ac_finish (hb : b ≤ x.max) :
    Tr (P := P) (C := C) env (AcInv x b) logRoutineEnd (fun _ => AcInv x b) (fun _ => AcEnd x) := ac_same hb _ rfl

theorem ac_heur (hb : b ≤ x.max) (i a a' : Nat) :
    Tr (P := P) (C := C) env (AcInv x b) (logEvent (.heurImprovement i a a')) (fun _ => AcInv x b) (fun _ => AcEnd x) :=
  ac_same hb _ rfl

theorem ac_check (hb : b ≤ x.max) :
    Tr (P := P) (C := C) env (AcInv x b) checkTermination (fun _ => AcInv x b) (fun _ => AcEnd x) := fun s h =>
  wpio_check fun s' hs => by
    subst hs
    exact ⟨fun _ => h.frame rfl rfl, fun _ => (h.end hb).frame rfl⟩

theorem ac_stepLimit (hb : b ≤ x.max) (get : Limits → Option Nat) (set : Option Nat → Limits → Limits) (t : Termination) :
    Tr (P := P) (C := C) env (AcInv x b) (stepLimit get set t) (fun _ => AcInv x b) (fun _ => AcEnd x) := fun _ h =>
  wpio_stepLimit (fun _ _ => h.frame rfl rfl) (fun _ _ => (h.end hb).frame rfl) (fun _ _ => h.end hb)

theorem ac_bump (f : Stats → Stats) :
    Tr (P := P) (C := C) env (AcInv x b) (bumpStats f) (fun _ => AcInv x b) (fun _ => AcEnd x) := fun _ h => h.frame rfl rfl

/-- Rule for counting. -/
theorem ac_charge (hb : b ≤ x.max) (k : Limited) (e : LogEvent) {c : Int} (hc : c = b + x.debt e) (hcm : c ≤ x.max) :
    Tr (P := P) (C := C) env (AcInv x b) (charge k e) (fun _ => AcInv x c) (fun _ => AcEnd x) := by
  cases k <;> exact (ac_bump _).bind fun _ => (ac_event hb e hc).bind fun _ => ac_stepLimit hcm _ _ _

theorem ac_oracleSolve (a : List Lit) :
    Tr (P := P) (C := C) env (AcInv x b) (oracleSolve a) (fun _ => AcInv x b) (fun _ => AcEnd x) := fun s h => by
  unfold wp oracleSolve
  cases env.oracle s.io.tick s.k.conflLimited s.k.db a <;> exact h.frame rfl rfl

theorem ac_call (hb : b + 1 ≤ x.max) (a : List Lit) :
    Tr (P := P) (C := C) env (AcInv x b) (solveAssumps a) (fun _ => AcInv x (b + 1)) (fun _ => AcEnd x) := by
  have hb' : b ≤ x.max := by omega
  refine (ac_start hb' (by decide)).bind fun _ => (ac_oracleSolve a).bind fun r => (ac_finish hb').bind fun _ =>
    (ac_check hb').bind fun _ => Tr.bind ?_ fun _ => Tr.pure fun _ h => h
  rw [logOracleCall_eq]
  exact ac_charge hb' _ _ rfl hb

theorem ac_cand (hb : b + 1 ≤ x.max) (costs : List Nat) (ph : Phase) :
    Tr (P := P) (C := C) env (AcInv x (b + 1)) (logCandidate costs ph) (fun _ => AcInv x b) (fun _ => AcEnd x) :=
  Tr.getS fun _ => ((ac_quiet hb).dbg _).bind fun _ =>
    ac_charge hb .candidates (.candidate costs ph) (by simp only [AcCtx.debt]; omega) (by omega)

theorem Tr.getS_inv {A : Slv P C → Prop} {J : Stop → Slv P C → Prop} {f : Slv P C → M P C β} {R : β → Slv P C → Prop}
    (h : ∀ s, A s → Tr env A (f s) R J) : Tr env A (Scuttle.getS >>= f) R J := fun s hs => by
  rw [wp_bind, wp_getS]; exact h s hs s hs

/-- Messages that do not add to the debt after the call was stopped. -/
theorem acEnd_charge (k : Limited) (e : LogEvent) (he : x.debt e ≤ 0) :
    Tr (P := P) (C := C) env (AcEnd x) (charge k e) (fun _ => AcEnd x) (fun _ => AcEnd x) := fun s h => by
  have key : ∀ s', Logged e s s' → AcEnd x s' := fun s' hl l hs => by
    rw [Logged] at hl
    rw [hl] at hs
    cases hl0 : s.io.logger with
    | none => rw [hl0] at hs; cases hs
    | some l0 =>
      rw [hl0] at hs
      obtain ⟨es, h1, h2⟩ := h l0 hl0
      cases hs
      exact ⟨es ++ [e], by rw [h1]; exact List.append_assoc _ _ _, by rw [bal_append]; omega⟩
  exact wpio_charge (fun s' _ hl _ => key s' hl) (fun s' _ hl _ _ => h.frame hl) (fun s' _ hl _ => key s' hl)
    (fun s' _ hl _ _ => key s' hl)

/-- Rule for the end of a point. -/
theorem ac_point {R : Type} (ok : AcOK x) (hb : b ≤ x.max) {c : Int} (hc : c = b - x.point) (nd : NonDomPoint Assignment) (r : R) :
    Tr (P := P) (C := C) env (AcInv x b) (do
      let ppTerm ← attempt (logNonDominated nd)
      collect nd
      logRoutineEnd
      ofExcept ppTerm
      M.pure r) (fun r' s => r' = r ∧ AcInv x c s) (fun _ => AcEnd x) := by
  have hp := ok.point
  have hd : x.debt (.nonDominated nd) = -x.point := rfl
  refine Tr.bind (Q := fun r s => match r with | .ok () => AcInv x c s | .error _ => AcEnd x s) ?_ fun t => ?_
  · intro s h
    refine wp_attempt ?_
    rw [logNonDominated_eq]
    refine wp_mono (ac_charge hb .points (.nonDominated nd) (c := c) (by omega) (by omega) s h) (fun _ _ h => h) ?_
    intro e s' h
    cases e <;> exact h
  · cases t with
    | ok u =>
      refine Tr.bind (Q := fun _ => AcInv x c) (fun s h => h.frame rfl rfl) fun _ => ?_
      exact (ac_finish (by omega)).bind fun _ => Tr.bind (Q := fun _ => AcInv x c) (fun _ h => h) fun _ =>
        Tr.pure fun _ h => ⟨rfl, h⟩
    | error e =>
      refine Tr.bind (Q := fun _ => AcEnd x) (fun s h => h.frame rfl) fun _ => ?_
      refine Tr.bind (Q := fun _ => AcEnd x) ?_ fun _ => Tr.bind (Q := fun _ _ => False) (fun _ h => h) fun _ _ h => h.elim
      intro s h
      refine wpio_logEvent ?_ ?_
      · intro s' _ _ _ _ _ hl l hs
        rw [Logged] at hl
        rw [hl] at hs
        cases hl0 : s.io.logger with
        | none => rw [hl0] at hs; cases hs
        | some l0 =>
          rw [hl0] at hs
          obtain ⟨es, h1, h2⟩ := h l0 hl0
          cases hs
          exact ⟨es ++ [.routineEnd], by rw [h1]; exact List.append_assoc _ _ _, by rw [bal_append]; simpa [AcCtx.debt] using h2⟩
      · intro s' _ _ _ _ _ hl _
        exact h.frame hl

theorem ac_yieldBody (ok : AcOK x) (hb : b ≤ x.max) (costs : List Nat) (assumps : List Lit)
    (st : NonDomPoint Assignment × Assignment) :
    Tr (P := P) (C := C) env (AcInv x b) (yieldBody costs assumps st)
      (BodyPost (fun _ => AcInv x b) (fun _ => AcInv x (b - x.point))) (fun _ => AcEnd x) := by
  have hs := ok.sol
  refine Tr.getS_inv fun s hi => ((ac_quiet hb).dbg _).bind fun _ => ?_
  refine Tr.bind (Q := fun r s => match r with | .ok () => AcInv x (b - x.sol) s | .error _ => AcEnd x s) ?_ fun r => ?_
  · intro s h
    refine wp_attempt ?_
    rw [logSolution_eq]
    refine wp_mono (ac_charge hb .solutions .solution (c := b - x.sol) (by simp only [AcCtx.debt]; omega) (by omega) s h)
      (fun _ _ h => h) ?_
    intro e s' h
    cases e <;> exact h
  · cases r with
    | error e =>
      refine Tr.bind (Q := fun _ => AcEnd x) ?_ fun t => Tr.bind (Q := fun _ => AcEnd x) (fun s h => h.frame rfl) fun _ =>
        Tr.bind (Q := fun _ => AcEnd x) ?_ fun _ s h => h
      · intro s h
        refine wp_attempt ?_
        rw [logNonDominated_eq]
        refine wp_mono (acEnd_charge .points _ (by have := ok.point; simp only [AcCtx.debt]; omega) s h) (fun _ _ h => h) ?_
        intro e s' h
        cases e <;> exact h
      · intro s h
        cases t <;> exact h
    | ok u =>
      refine Tr.ite (fun _ => ?_) fun hn => ?_
      · refine Tr.weaken (ac_point ok (by omega) rfl _ _) (fun _ h => h) ?_
        rintro _ s ⟨rfl, h⟩
        exact h.mono (by omega) fun hx => by rw [ok.exSol hx]; omega
      · have h1 : x.sol = 1 := by
          rcases ok.enum with he | he
          · exfalso; apply hn; rw [hi.opts, he]; rfl
          · exact he
        refine (ac_check (by omega)).bind fun _ => ((ac_quiet (by omega)).blockSolution _).bind fun _ => ?_
        refine (ac_call (by omega) _).bind fun res => ?_
        refine Tr.weaken (A := AcInv x b) ?_ (fun s h => h.mono (by omega) fun _ => by omega) (fun _ _ h => h)
        refine Tr.ite (fun _ => ?_) fun _ => ?_
        · refine Tr.weaken (ac_point ok hb rfl _ _) (fun _ h => h) ?_
          rintro _ s ⟨rfl, h⟩
          exact h
        · exact (ac_check hb).bind fun _ => (ac_quiet hb).oracleSolution.bind fun _ => Tr.pure fun _ h => h

theorem ac_yield (ok : AcOK x) (hb : b ≤ x.max) (fuel : Nat) (costs : List Nat) (assumps : List Lit) (sol : Assignment) :
    Tr (P := P) (C := C) env (AcInv x b) (yieldSolutions fuel costs assumps sol) (fun _ => AcInv x (b - x.point))
      (fun _ => AcEnd x) :=
  Tr.getS fun _ => ((ac_quiet hb).dbg _).bind fun _ => (ac_start hb (by decide)).bind fun _ =>
    (ac_quiet hb).unphaseSolution.bind fun _ => ((ac_quiet hb).externalize _).bind fun _ =>
    Tr.loop (I := fun _ => AcInv x b) fuel _ (fun st => ac_yieldBody ok hb costs assumps st) fun _ _ h => h.end hb

variable [UbEnc P] [UbEnc C]

/-! ## P-minimal -/

theorem ac_pminBody (hb : b + 1 ≤ x.max) (base : List Lit) (st : PMinState) :
    Tr (P := P) (C := C) env (AcInv x b) (pminBody base st) (BodyPost (fun _ => AcInv x b) (fun _ => AcInv x (b + 1)))
      (fun _ => AcEnd x) := by
  have hb' : b ≤ x.max := by omega
  refine ((ac_quiet hb').pminBlock _ _ _).bind fun r => ?_
  obtain ⟨bs, pre⟩ := r
  refine ((ac_quiet hb').enforceDominating _).bind fun dom => (ac_call hb _).bind fun res => ?_
  refine Tr.ite (fun _ => (ac_finish hb).bind fun _ => Tr.pure fun _ h => h) fun _ => ?_
  refine (ac_check hb).bind fun _ => Tr.getS fun _ => ((ac_quiet hb).getSolutionAndCosts (ac_heur hb) _).bind fun r => ?_
  exact (ac_cand hb _ _).bind fun _ => (ac_check hb').bind fun _ => Tr.pure fun _ h => h

theorem ac_pMinimization (hb : b + 1 ≤ x.max) (fuel : Nat) (costs : List Nat) (sol : Assignment) (base : List Lit) :
    Tr (P := P) (C := C) env (AcInv x b) (pMinimization fuel costs sol base) (fun _ => AcInv x (b + 1)) (fun _ => AcEnd x) :=
  have hb' : b ≤ x.max := by omega
  Tr.getS fun _ => ((ac_quiet hb').dbg _).bind fun _ => (ac_start hb' (by decide)).bind fun _ =>
    Tr.loop (I := fun _ => AcInv x b) fuel _ (fun st => ac_pminBody hb base st) fun _ _ h => h.end hb'

theorem ac_harvestBody (ok : AcOK x) (hp : x.point = 1) (hb : b + 1 ≤ x.max) (fuel : Nat) (assumps base : List Lit) (u : Unit) :
    Tr (P := P) (C := C) env (AcInv x b) (harvestBody fuel assumps base u)
      (BodyPost (fun _ => AcInv x b) (fun _ => AcInv x (b + 1))) (fun _ => AcEnd x) := by
  have hb' : b ≤ x.max := by omega
  refine (ac_call hb _).bind fun res => ?_
  refine Tr.ite (fun _ => (ac_finish hb).bind fun _ => Tr.pure fun _ h => h) fun _ => ?_
  refine (ac_check hb).bind fun _ => Tr.getS fun _ => ((ac_quiet hb).getSolutionAndCosts (ac_heur hb) _).bind fun r =>
    (ac_cand hb _ _).bind fun _ => (ac_check hb').bind fun _ => ?_
  refine (ac_pMinimization hb _ _ _ _).bind fun r => ((ac_quiet hb).enforceDominating _).bind fun _ =>
    (ac_yield ok hb _ _ _ _).bind fun _ => ?_
  refine Tr.weaken (A := AcInv x b) ?_ (fun s h => h.mono (by omega) fun _ => by omega) (fun _ _ h => h)
  exact ((ac_quiet hb').commitBlock _).bind fun _ => Tr.pure fun _ h => h

theorem ac_pminMain (ok : AcOK x) (hp : x.point = 1) (hb : b + 1 ≤ x.max) (fuel : Nat) :
    Tr (P := P) (C := C) env (AcInv x b) (pminMain fuel) (fun _ => AcInv x (b + 1)) (fun _ => AcEnd x) :=
  have hb' : b ≤ x.max := by omega
  Tr.getS fun _ => ((ac_quiet hb').dbg _).bind fun _ => (ac_start hb' (by decide)).bind fun _ =>
    Tr.loop (I := fun _ => AcInv x b) fuel () (fun u => ac_harvestBody ok hp hb fuel [] [] u) fun _ _ h => h.end hb'

/-! ## LowerBounding -/

theorem ac_harvest (ok : AcOK x) (hp : x.point = 1) (hh : x.harvest = 2) (hb : b + 1 ≤ x.max) (fuel : Nat) (base : List Lit) :
    Tr (P := P) (C := C) env (AcInv x (b + 1)) (harvest fuel base) (fun _ => AcInv x b) (fun _ => AcEnd x) := by
  refine Tr.getS fun _ => ((ac_quiet hb).dbg _).bind fun _ => Tr.bind (Q := fun _ => AcInv x (b - 1)) ?_ fun _ => ?_
  · exact ac_event hb (.routineStart "harvest") (by
      have : x.debt (.routineStart "harvest") = -x.harvest := rfl
      omega)
  · refine Tr.weaken (Tr.loop (I := fun _ => AcInv x (b - 1)) fuel ()
      (fun u => ac_harvestBody ok hp (by omega) fuel _ base u) fun _ _ h => h.end (by omega)) (fun _ h => h) ?_
    intro _ s h
    exact h.mono (by omega) fun _ => by omega

theorem ac_initFenceLoop (hb : b ≤ x.max) (n : Nat) :
    ∀ i, Tr (P := P) (C := C) env (AcInv x b) (initFenceLoop i n) (fun _ => AcInv x b) (fun _ => AcEnd x) := by
  have q := ac_quiet (P := P) (C := C) hb
  induction n with
  | zero => exact fun _ => Tr.pure fun _ h => h
  | succ n ih =>
    exact fun i => (q.encAt _).bind fun _ => (q.extendEncoding _ _ _).bind fun _ => (q.encAt _).bind fun _ =>
      (q.unwrap _).bind fun _ => Tr.bind (Q := fun _ => AcInv x b) (fun s h => h.frame rfl rfl) fun _ => ih _

theorem ac_lbBody (ok : AcOK x) (hp : x.point = 1) (hh : x.harvest = 2) (hf : x.fence = 1) (hb : b + 1 ≤ x.max) (fuel : Nat)
    (u : Unit) : Tr (P := P) (C := C) env (AcInv x b) (lbBody fuel u)
      (BodyPost (fun _ => AcInv x b) (fun _ => AcInv x (b + 1))) (fun _ => AcEnd x) := by
  have q := ac_quiet (P := P) (C := C) hb
  refine Tr.getS fun _ => (ac_call hb _).bind fun res => ?_
  split
  · exact (ac_harvest ok hp hh hb _ _).bind fun _ => Tr.pure fun _ h => h
  · refine q.oracleCore.bind fun core => Tr.ite (fun _ => (ac_finish hb).bind fun _ => Tr.pure fun _ h => h) fun _ => ?_
    refine Tr.getS fun _ => Tr.bind (Q := fun _ => AcInv x b) ?_ fun _ => Tr.getS fun _ =>
      ((ac_quiet (by omega)).dbg _).bind fun _ => Tr.pure fun _ h => h
    refine Tr.getS fun _ => (q.updateFenceLoop _ _).bind fun _ => Tr.getS fun _ => ac_event hb _ ?_
    simp only [AcCtx.debt]; omega
  · exact q.panic

theorem ac_lbMain (ok : AcOK x) (hp : x.point = 1) (hh : x.harvest = 2) (hf : x.fence = 1) (hb : b + 1 ≤ x.max) (fuel : Nat) :
    Tr (P := P) (C := C) env (AcInv x b) (lbMain fuel) (fun _ => AcInv x (b + 1)) (fun _ => AcEnd x) :=
  have hb' : b ≤ x.max := by omega
  Tr.getS fun _ => ((ac_quiet hb').dbg _).bind fun _ => (ac_start hb' (by decide)).bind fun _ =>
    Tr.bind (Q := fun _ => AcInv x b) (Tr.getS fun _ => Tr.ite (fun _ => ac_initFenceLoop hb' _ _) fun _ => Tr.pure fun _ h => h)
    fun _ => Tr.loop (I := fun _ => AcInv x b) fuel () (fun u => ac_lbBody ok hp hh hf hb fuel u) fun _ _ h => h.end hb'

/-! ## BiOptSat -/

theorem ac_linsuBody (hx : ¬ x.ex) (hb : b + 1 ≤ x.max) (oi ei : Nat) (base : List Lit) (lb : Nat) (st : Nat × Option Assignment) :
    Tr (P := P) (C := C) env (fun s => st.2.isSome = true ∧ AcInv x b s) (linsuBody oi ei base lb st)
      (BodyPost (fun st s => st.2.isSome = true ∧ AcInv x b s) (fun st s => st.2.isSome = true ∧ AcInv x (b + 1) s))
      (fun _ => AcEnd x) := by
  have hb' : b ≤ x.max := by omega
  have q := ac_quiet (P := P) (C := C) hb
  intro s hs
  obtain ⟨h0, h⟩ := hs
  refine (show Tr (P := P) (C := C) env (AcInv x b) _ _ _ from ?_) s h
  refine Tr.ite (fun _ => ?_) fun _ => Tr.pure fun _ h => ⟨h0, h.mono (by omega) fun h => absurd h hx⟩
  refine ((ac_quiet hb').extendEncoding _ _ _).bind fun _ => ((ac_quiet hb').encAt _).bind fun e =>
    ((ac_quiet hb').unwrap _).bind fun ls => (ac_call hb _).bind fun res => ?_
  split
  · exact q.oracleSolution.bind fun sol => (q.getCost _ _).bind fun nc => (q.dbg _).bind fun _ =>
      Tr.getS fun s => (ac_cand hb _ _).bind fun _ => Tr.pure fun _ h => ⟨rfl, h⟩
  · exact Tr.pure fun _ h => ⟨h0, h⟩
  · exact q.panic

theorem ac_linsu (hx : ¬ x.ex) (hb : b + 1 ≤ x.max) (fuel oi ei : Nat) (base : List Lit) (c : Nat) (sol : Assignment)
    (lb : Option Nat) : Tr (P := P) (C := C) env (AcInv x b) (linsu fuel oi ei base (some (c, some sol)) lb)
      (fun r s => r.isSome = true ∧ AcInv x (b + 1) s) (fun _ => AcEnd x) := by
  refine (ac_start (by omega) (by decide)).bind fun _ => ?_
  refine Tr.bind (Tr.weaken (Tr.loop (I := fun st s => st.2.isSome = true ∧ AcInv x b s) fuel (c, some sol)
    (fun st => ac_linsuBody hx hb oi ei base _ st) fun _ _ h => h.2.end (by omega)) (fun _ h => ⟨rfl, h⟩) (fun _ _ h => h))
    fun st => Tr.bind (Q := fun _ => AcInv x (b + 1)) ?_ fun _ => Tr.pure fun _ h => ⟨rfl, h⟩
  rintro s ⟨h0, h⟩
  obtain ⟨c', _ | sol'⟩ := st
  · cases h0
  · exact Tr.bind (R := fun _ => AcInv x (b + 1)) (ac_finish hb) (fun _ => Tr.pure fun _ h => h) s h

theorem ac_linsuYield (ok : AcOK x) (hx : ¬ x.ex) (hp : x.point = 3) (hb : b + 1 ≤ x.max) (fuel oi ei : Nat) (base : List Lit)
    (c : Nat) (sol : Assignment) (lb : Option Nat) :
    Tr (P := P) (C := C) env (AcInv x b) (linsuYield fuel oi ei base (some (c, some sol)) lb)
      (fun _ => AcInv x (b - 2)) (fun _ => AcEnd x) := by
  have q := ac_quiet (P := P) (C := C) hb
  refine (ac_linsu hx hb fuel oi ei base c sol lb).bind fun r => ?_
  rintro s ⟨h0, h⟩
  obtain _ | ⟨c', sol'⟩ := r
  · cases h0
  · refine (show Tr (P := P) (C := C) env (AcInv x (b + 1)) _ (fun _ => AcInv x (b - 2)) _ from ?_) s h
    refine Tr.getS fun s => (q.dbg _).bind fun _ => (q.extendEncoding _ _ _).bind fun _ => (q.encAt _).bind fun e =>
      (q.unwrap _).bind fun ls => (ac_yield ok hb _ _ _ _).bind fun _ => Tr.pure fun _ h => ?_
    exact h.mono (by omega) fun _ => by omega

theorem ac_bosBody (ok : AcOK x) (hx : ¬ x.ex) (hp : x.point = 3) (hb : b + 2 ≤ x.max) (fuel incObj decObj : Nat)
    (base : List Lit) (decLb : Nat) (st : BosState) :
    Tr (P := P) (C := C) env (AcInv x b) (bosBody fuel incObj decObj base decLb (fun _ => none) st)
      (BodyPost (fun _ => AcInv x b) (fun _ => AcInv x b)) (fun _ => AcEnd x) := by
  have q := ac_quiet (P := P) (C := C) (x := x) (b := b + 1) (by omega)
  have q0 := ac_quiet (P := P) (C := C) (x := x) (b := b - 1) (by omega)
  have q1 := ac_quiet (P := P) (C := C) (x := x) (b := b) (by omega)
  refine (ac_linsu hx (by omega) _ _ _ _ _ _ _).bind fun r => ?_
  rintro s ⟨h0, h⟩
  obtain _ | ⟨incCost, sol⟩ := r
  · cases h0
  · refine (show Tr (P := P) (C := C) env (AcInv x (b + 1)) _ (BodyPost (fun _ => AcInv x b) (fun _ => AcInv x b)) _ from ?_) s h
    refine (q.getCost _ _).bind fun dc => Tr.bind (Q := fun _ => AcInv x (b - 1)) ?_ fun dc => Tr.ite
      (fun _ => (ac_finish (by omega)).bind fun _ => Tr.pure fun _ h => h.mono (by omega) fun h => absurd h hx) fun _ => ?_
    · refine (q.extendEncoding _ _ _).bind fun _ => (q.encAt _).bind fun _ => (q.unwrap _).bind fun _ =>
        (ac_linsuYield ok hx hp (by omega) _ _ _ _ _ _ _).bind fun r => ?_
      refine Tr.weaken (A := AcInv x (b - 1)) ?_ (fun s h => h.mono (by omega) fun _ => by omega) (fun _ _ h => h)
      exact (q0.unwrap r).bind fun _ => Tr.pure fun _ h => h
    · refine (q0.extendEncoding _ _ _).bind fun _ => (q0.encAt _).bind fun _ => (q0.orErr _).bind fun _ =>
        (q0.addClauses _).bind fun _ => (ac_call (by omega) _).bind fun res => ?_
      refine Tr.weaken (A := AcInv x b) ?_ (fun s h => h.mono (by omega) fun _ => by omega) (fun _ _ h => h)
      split
      · exact q1.oracleSolution.bind fun _ => (q1.getCostTight (ac_heur (by omega)) _ _ _).bind fun _ => Tr.pure fun _ h => h
      · exact (ac_finish (by omega)).bind fun _ => Tr.pure fun _ h => h
      · exact q1.panic

theorem ac_bosMain (ok : AcOK x) (hx : ¬ x.ex) (hp : x.point = 3) (hb : b + 3 ≤ x.max) (fuel : Nat) :
    Tr (P := P) (C := C) env (AcInv x b) (bosMain fuel) (fun _ => AcInv x (b + 1)) (fun _ => AcEnd x) := by
  have q := ac_quiet (P := P) (C := C) (x := x) (b := b) (by omega)
  have q1 := ac_quiet (P := P) (C := C) (x := x) (b := b + 1) (by omega)
  refine (ac_start (by omega) (by decide)).bind fun _ => Tr.getS fun s => (q.dbg _).bind fun _ => (q.encAt _).bind fun _ =>
    (q.encAt _).bind fun _ => ?_
  refine (ac_call (by omega) _).bind fun res => Tr.ite
    (fun _ => Tr.pure fun _ h => h) fun _ => ?_
  refine q1.oracleSolution.bind fun _ => (q1.getCostTight (ac_heur (by omega)) _ _ _).bind fun _ => ?_
  exact Tr.loop (I := fun _ => AcInv x (b + 1)) fuel _ (fun st => ac_bosBody ok hx hp (by omega) fuel 0 1 [] _ st)
    fun _ _ h => h.end (by omega)

end Scuttle
