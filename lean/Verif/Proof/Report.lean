import Verif.Proof.Io
import Verif.Proof.Steps

/-!
# P-minimal and lower-bounding report the candidate found last

As in `IoLogic`, this does not depend on the correctness of the oracle and of the encodings.
-/

set_option linter.unusedSectionVars false

namespace Scuttle

open Spec

variable {P C α β : Type} {env : Env} {objs : List Objective}

theorem _root_.Scuttle.Spec.ReportsLast.snoc {l : List LogEvent} {e : LogEvent} (h : ReportsLast objs l)
    (he : ∀ p, e = .nonDominated p → ∃ c, lastCandidate l = some c ∧ p.costs = List.zipWith externalCost objs c) :
    ReportsLast objs (l ++ [e]) := by
  intro pre p post hl
  rcases List.eq_nil_or_concat post with rfl | ⟨post', x, rfl⟩
  · obtain ⟨rfl, h2⟩ := List.append_inj' hl rfl
    simp only [List.cons.injEq, and_true] at h2
    obtain ⟨c, hc, hp⟩ := he p h2
    rw [lastCandidate, Option.map_eq_some_iff] at hc
    obtain ⟨⟨c', ph⟩, hc', rfl⟩ := hc
    exact ⟨c', ph, hc', hp⟩
  · rw [List.concat_eq_append, ← List.cons_append, ← List.append_assoc] at hl
    obtain ⟨h1, -⟩ := List.append_inj' hl rfl
    exact h pre p post' h1

theorem ReportsLast.nil : ReportsLast objs [] := by
  intro pre p post h
  simp at h

theorem externalizeLoop_spec {d : Bool} {os : List Objective} {cs : List Nat} {xs : List Int}
    (h : externalizeLoop d os cs = some xs) : xs = List.zipWith externalCost os cs := by
  induction os generalizing cs xs with
  | nil =>
    cases cs with
    | nil => simpa [externalizeLoop] using h.symm
    | cons c cs => simp [externalizeLoop] at h
  | cons o os ih =>
    cases cs with
    | nil => simpa [externalizeLoop] using h.symm
    | cons c cs =>
      simp only [externalizeLoop] at h
      obtain ⟨x, hx, h⟩ := Option.bind_eq_some_iff.1 h
      obtain ⟨ys, hy, h⟩ := Option.bind_eq_some_iff.1 h
      simp only [Option.some.injEq] at h
      subst h
      rw [List.zipWith_cons_cons, ← ih hy]
      congr 1
      cases o <;> simp only [externalizeOne] at hx <;> split at hx <;>
        first
          | (simp only [Option.some.injEq] at hx; subst hx; rfl)
          | simp at hx

/-- Invariant: the objectives are these, each reported point has the costs of the last candidate before it, and the last
candidate has the costs `c` if these are given. -/
def Rep (objs : List Objective) (c : Option (List Nat)) (s : Slv P C) : Prop :=
  s.k.objs = objs ∧ ∀ l, s.io.logger = some l → ReportsLast objs l ∧ ∀ x, c = some x → lastCandidate l = some x

/-- What holds when a computation stops. -/
def RepEnd (objs : List Objective) (_ : Stop) (s : Slv P C) : Prop := Rep objs none s

variable {c : Option (List Nat)}

theorem Rep.end {s : Slv P C} (h : Rep objs c s) {e : Stop} : RepEnd objs e s :=
  ⟨h.1, fun l hl => ⟨(h.2 l hl).1, fun _ h => by cases h⟩⟩

theorem Rep.any {s : Slv P C} (h : Rep objs c s) : Rep objs none s := h.end (e := .panic)

theorem rep_quiet : Quiet (P := P) (C := C) (Rep objs c) (RepEnd objs) :=
  ⟨fun h1 _ h3 h => ⟨by rw [h3.1]; exact h.1, by rw [h1]; exact h.2⟩, fun _ _ h => h.end⟩

theorem Tr.ends {A : Slv P C → Prop} {f : M P C α} {Q : α → Slv P C → Prop}
    (h : Tr env A f Q (fun _ => Rep objs c)) : Tr env A f Q (RepEnd objs) :=
  fun s hs => wp_mono (h s hs) (fun _ _ h => h) fun _ _ h => h.any

theorem rep_event (e : LogEvent) {c' : Option (List Nat)}
    (h : ∀ l, ReportsLast objs l → (∀ x, c = some x → lastCandidate l = some x) →
      ReportsLast objs (l ++ [e]) ∧ ∀ x, c' = some x → lastCandidate (l ++ [e]) = some x) :
    Tr (P := P) (C := C) env (Rep objs c) (logEvent e) (fun _ => Rep objs c') (fun _ => Rep objs c) := by
  intro s hs
  unfold wp logEvent
  cases hl : s.io.logger with
  | none => exact ⟨hs.1, fun l h => by rw [hl] at h; cases h⟩
  | some l =>
    obtain ⟨h1, h2⟩ := hs.2 l hl
    simp only
    by_cases hok : env.logOk s.io.tick = true
    · rw [if_pos hok]
      refine ⟨hs.1, fun l' h' => ?_⟩
      cases h'
      exact h l h1 h2
    · rw [if_neg hok]
      exact ⟨hs.1, fun l' h' => hs.2 l' h'⟩

theorem rep_step (get : Limits → Option Nat) (set : Option Nat → Limits → Limits) (t : Termination) :
    Tr (P := P) (C := C) env (Rep objs c) (stepLimit get set t) (fun _ => Rep objs c) (fun _ => Rep objs c) :=
  fun s hs => wpio_stepLimit (fun _ _ => hs) (fun _ _ => hs) (fun _ _ => hs)

theorem rep_bump {J : Stop → Slv P C → Prop} (f : Stats → Stats) :
    Tr (P := P) (C := C) env (Rep objs c) (bumpStats f) (fun _ => Rep objs c) J := fun _ hs => hs

/-- A message that is neither a candidate nor a point. -/
theorem rep_keep (e : LogEvent) (h1 : ∀ x ph, e ≠ .candidate x ph := by intros; simp)
    (h2 : ∀ p, e ≠ .nonDominated p := by intros; simp) :
    Tr (P := P) (C := C) env (Rep objs c) (logEvent e) (fun _ => Rep objs c) (fun _ => Rep objs c) :=
  rep_event e fun l hl hc => ⟨hl.snoc fun p hp => absurd hp (h2 p), fun x hx => by
    rw [lastCandidate_other l h1]; exact hc x hx⟩

theorem rep_other (e : LogEvent) (h1 : ∀ x ph, e ≠ .candidate x ph := by intros; simp)
    (h2 : ∀ p, e ≠ .nonDominated p := by intros; simp) :
    Tr (P := P) (C := C) env (Rep objs c) (logEvent e) (fun _ => Rep objs c) (RepEnd objs) := (rep_keep e h1 h2).ends

theorem rep_candidate (x : List Nat) (ph : Phase) :
    Tr (P := P) (C := C) env (Rep objs c) (logCandidate x ph) (fun _ => Rep objs (some x)) (RepEnd objs) :=
  Tr.getS fun _ => (rep_quiet.dbg _).bind fun _ => (rep_bump _).bind fun _ =>
    (rep_event (c' := some x) _ fun l hl _ => ⟨hl.snoc fun p hp => (by cases hp), fun y hy => (by
      cases hy
      exact lastCandidate_snoc l x ph)⟩).ends.bind fun _ => (rep_step _ _ _).ends

theorem rep_solution : Tr (P := P) (C := C) env (Rep objs c) logSolution (fun _ => Rep objs c) (fun _ => Rep objs c) :=
  (rep_bump _).bind fun _ => (rep_keep _).bind fun _ => rep_step _ _ _

theorem rep_point {x : List Nat} (p : NonDomPoint Assignment) (hp : p.costs = List.zipWith externalCost objs x) :
    Tr (P := P) (C := C) env (Rep objs (some x)) (logNonDominated p) (fun _ => Rep objs (some x)) (RepEnd objs) :=
  (rep_bump _).bind fun _ =>
    (rep_event (c' := some x) _ fun l hl hx => ⟨hl.snoc fun q hq => (by
      cases hq
      exact ⟨x, hx x rfl, hp⟩), fun y hy => (by
      rw [lastCandidate_other l (by intros; simp)]
      exact hx y hy)⟩).ends.bind fun _ => (rep_step _ _ _).ends

theorem rep_check : Tr (P := P) (C := C) env (Rep objs c) checkTermination (fun _ => Rep objs c) (RepEnd objs) :=
  fun s hs => wpio_check fun s' hs' => by
    subst hs'
    exact ⟨fun _ => hs, fun _ => hs.any⟩

theorem rep_oracle (a : List Lit) :
    Tr (P := P) (C := C) env (Rep objs c) (oracleSolve a) (fun _ => Rep objs c) (RepEnd objs) := fun s hs => by
  unfold wp oracleSolve
  cases env.oracle s.io.tick s.k.conflLimited s.k.db a <;> exact hs

theorem rep_call (a : List Lit) :
    Tr (P := P) (C := C) env (Rep objs c) (solveAssumps a) (fun _ => Rep objs c) (RepEnd objs) := by
  refine (rep_other _).bind fun _ => (rep_oracle _).bind fun r => (rep_other _).bind fun _ => rep_check.bind fun _ => ?_
  refine Tr.bind (Q := fun _ => Rep objs c) ?_ fun _ => Tr.pure fun _ h => h
  exact (rep_bump _).bind fun _ => (rep_other _).bind fun _ => (rep_step _ _ _).ends

/-- Result of an attempt. -/
def AttPost (objs : List Objective) (c : Option (List Nat)) (r : Except Stop Unit) : Slv P C → Prop :=
  match r with
  | .ok _ => Rep objs c
  | .error _ => Rep objs none

theorem rep_attempt {f : M P C Unit} (h : Tr env (Rep objs c) f (fun _ => Rep objs c) (RepEnd objs)) :
    Tr env (Rep objs c) (attempt f) (AttPost objs c) (RepEnd objs) := fun s hs =>
  wp_attempt (wp_mono (h s hs) (fun _ _ h => h) fun e _ h => by cases e <;> exact h)

theorem rep_attempt' {f : M P C Unit} (h : Tr env (Rep objs c) f (fun _ => Rep objs c) (fun _ => Rep objs c)) :
    Tr env (Rep objs c) (attempt f) (fun _ => Rep objs c) (RepEnd objs) := fun s hs =>
  wp_attempt (wp_mono (h s hs) (fun _ _ h => h) fun e _ h => by cases e <;> first | exact h | exact h.any)

theorem rep_ofExcept (r : Except Stop Unit) :
    Tr (P := P) (C := C) env (AttPost objs c r) (ofExcept r) (fun _ => Rep objs c) (RepEnd objs) := fun s hs => by
  cases r <;> exact hs

theorem rep_collect {A : Slv P C → Prop} (p : NonDomPoint Assignment)
    (h : A = Rep objs c) : Tr (P := P) (C := C) env A (collect p) (fun _ => A) (RepEnd objs) := fun s hs => by
  subst h
  exact hs

theorem rep_finish {R : Type} {r : R} {x : List Nat} (p : NonDomPoint Assignment)
    (hp : p.costs = List.zipWith externalCost objs x) {Q : R → Slv P C → Prop} (hQ : ∀ s, Rep objs (some x) s → Q r s) :
    Tr env (Rep objs (some x)) (do
      let ppTerm ← attempt (logNonDominated p)
      collect p
      logRoutineEnd
      ofExcept ppTerm
      M.pure r : M P C R) Q (RepEnd objs) := by
  refine (rep_attempt (rep_point p hp)).bind fun t => ?_
  refine Tr.bind (Q := fun _ => AttPost objs (some x) t) ?_ fun _ => ?_
  · cases t <;> exact rep_collect p rfl
  refine Tr.bind (Q := fun _ => AttPost objs (some x) t) ?_ fun _ => ?_
  · cases t <;> exact rep_other _
  exact (rep_ofExcept t).bind fun _ => Tr.pure fun s h => hQ s h

theorem rep_yieldBody {x costs : List Nat} (assumps : List Lit) (st : NonDomPoint Assignment × Assignment)
    (hp : st.1.costs = List.zipWith externalCost objs x) :
    Tr (P := P) (C := C) env (Rep objs (some x)) (yieldBody costs assumps st)
      (BodyPost (fun st s => st.1.costs = List.zipWith externalCost objs x ∧ Rep objs (some x) s) (fun _ => Rep objs none))
      (RepEnd objs) := by
  refine Tr.getS fun s => (rep_quiet.dbg _).bind fun _ => (rep_attempt' rep_solution).bind fun t => ?_
  have hp' : (st.1.addSol (st.2.truncate s.k.vm.maxOrigVar)).costs = List.zipWith externalCost objs x := hp
  generalize st.1.addSol (st.2.truncate s.k.vm.maxOrigVar) = nd at *
  cases t with
  | error e =>
    refine (rep_attempt (rep_point nd hp')).bind fun t => ?_
    refine Tr.bind (Q := fun _ => AttPost objs (some x) t) ?_ fun _ => ?_
    · cases t <;> exact rep_collect nd rfl
    exact (rep_ofExcept t).bind fun _ s h => h.any
  | ok u =>
    refine Tr.ite (fun _ => ?_) fun _ => ?_
    · exact rep_finish _ hp' fun s h => h.any
    · refine rep_check.bind fun _ => (rep_quiet.blockSolution _).bind fun _ => (rep_call _).bind fun r => ?_
      refine Tr.ite (fun _ => rep_finish _ hp' fun s h => h.any) fun _ => ?_
      exact rep_check.bind fun _ => rep_quiet.oracleSolution.bind fun _ => Tr.pure fun s h => ⟨hp', h⟩

theorem rep_externalize (x : List Nat) : Tr (P := P) (C := C) env (Rep objs c) (externalize x)
    (fun r s => r = List.zipWith externalCost objs x ∧ Rep objs c s) (RepEnd objs) := fun s hs => by
  unfold externalize
  rw [wp_bind, wp_getS, wp_bind, wp_dbg_iff]
  split
  · exact hs.end
  rw [wp_bind]
  show wp env (unwrap (externalizeLoop env.debug s.k.objs x)) _ _ s
  cases h : externalizeLoop env.debug s.k.objs x with
  | none => exact hs.any
  | some r => exact ⟨by rw [externalizeLoop_spec h, hs.1], hs⟩

theorem rep_yieldSolutions (fuel : Nat) (x : List Nat) (assumps : List Lit) (sol : Assignment) :
    Tr (P := P) (C := C) env (Rep objs (some x)) (yieldSolutions fuel x assumps sol) (fun _ => Rep objs none)
      (RepEnd objs) := by
  refine Tr.getS fun s => (rep_quiet.dbg _).bind fun _ => (rep_other _).bind fun _ => rep_quiet.unphaseSolution.bind fun _ =>
    (rep_externalize x).bind fun ext => ?_
  refine Tr.weaken (Tr.loop (I := fun (st : NonDomPoint Assignment × Assignment) s =>
    st.1.costs = List.zipWith externalCost objs x ∧ Rep objs (some x) s) (Q := fun _ => Rep objs none) fuel
    (NonDomPoint.new ext, sol) (fun st s hs => rep_yieldBody assumps st hs.1 s hs.2) fun _ _ h => h.2.end)
    (fun s hs => ⟨hs.1, hs.2⟩) (fun _ _ h => h)

variable [UbEnc P] [UbEnc C]

theorem rep_pminBody (base : List Lit) (st : PMinState) :
    Tr (P := P) (C := C) env (Rep objs (some st.1)) (pminBody base st)
      (BodyPost (fun st => Rep objs (some st.1)) (fun st => Rep objs (some st.1))) (RepEnd objs) := by
  refine (rep_quiet.pminBlock _ _ _).bind fun r => ?_
  obtain ⟨bs, pre⟩ := r
  refine (rep_quiet.enforceDominating _).bind fun dom => (rep_call _).bind fun res => ?_
  refine Tr.ite (fun _ => (rep_other _).bind fun _ => Tr.pure fun _ h => h) fun _ => ?_
  refine rep_check.bind fun _ => Tr.getS fun _ => (rep_quiet.getSolutionAndCosts (fun _ _ _ => rep_other _) _).bind fun r => ?_
  exact (rep_candidate _ _).bind fun _ => rep_check.bind fun _ => Tr.pure fun _ h => h

theorem rep_pMinimization (fuel : Nat) (costs : List Nat) (sol : Assignment) (base : List Lit) :
    Tr (P := P) (C := C) env (Rep objs (some costs)) (pMinimization fuel costs sol base) (fun st => Rep objs (some st.1))
      (RepEnd objs) :=
  Tr.getS fun _ => (rep_quiet.dbg _).bind fun _ => (rep_other _).bind fun _ =>
    Tr.loop (I := fun (st : PMinState) => Rep objs (some st.1)) fuel (costs, sol, none) (fun st => rep_pminBody base st) fun _ _ h => h.end

theorem rep_harvestBody (fuel : Nat) (assumps base : List Lit) (u : Unit) :
    Tr (P := P) (C := C) env (Rep objs none) (harvestBody fuel assumps base u)
      (BodyPost (fun _ => Rep objs none) (fun _ => Rep objs none)) (RepEnd objs) := by
  refine (rep_call _).bind fun res => ?_
  refine Tr.ite (fun _ => (rep_other _).bind fun _ => Tr.pure fun _ h => h) fun _ => ?_
  refine rep_check.bind fun _ => Tr.getS fun _ => (rep_quiet.getSolutionAndCosts (fun _ _ _ => rep_other _) _).bind fun r => (rep_candidate _ _).bind fun _ =>
    rep_check.bind fun _ => ?_
  refine (rep_pMinimization _ _ _ _).bind fun st => (rep_quiet.enforceDominating _).bind fun _ =>
    (rep_yieldSolutions _ _ _ _).bind fun _ => (rep_quiet.commitBlock _).bind fun _ => Tr.pure fun _ h => h

theorem rep_pminMain (fuel : Nat) :
    Tr (P := P) (C := C) env (Rep objs none) (pminMain fuel) (fun _ => Rep objs none) (RepEnd objs) :=
  Tr.getS fun _ => (rep_quiet.dbg _).bind fun _ => (rep_other _).bind fun _ =>
    Tr.loop (I := fun _ => Rep objs none) fuel () (fun u => rep_harvestBody fuel [] [] u) fun _ _ h => h

/-! ## LowerBounding -/

theorem rep_updateFenceLoop (core : List Lit) : ∀ found,
    Tr (P := P) (C := C) env (Rep objs c) (updateFenceLoop core found) (fun _ => Rep objs c) (RepEnd objs) := by
  induction core with
  | nil => exact fun _ => Tr.pure fun _ h => h
  | cons l core ih =>
    intro found
    refine Tr.getS fun s => ?_
    split
    · exact ih _
    · exact (rep_quiet.unwrap _).bind fun _ => (rep_quiet.encAt _).bind fun _ => (rep_quiet.unwrap _).bind fun _ =>
        (rep_quiet.extendEncoding _ _ _).bind fun _ => (rep_quiet.encAt _).bind fun _ => (rep_quiet.unwrap _).bind fun _ =>
        Tr.bind (Q := fun _ => Rep objs c) (fun s h => h) fun _ => ih _

theorem rep_initFenceLoop (n : Nat) : ∀ i,
    Tr (P := P) (C := C) env (Rep objs c) (initFenceLoop i n) (fun _ => Rep objs c) (RepEnd objs) := by
  induction n with
  | zero => exact fun _ => Tr.pure fun _ h => h
  | succ n ih =>
    exact fun i => (rep_quiet.encAt _).bind fun _ => (rep_quiet.extendEncoding _ _ _).bind fun _ =>
      (rep_quiet.encAt _).bind fun _ => (rep_quiet.unwrap _).bind fun _ =>
      Tr.bind (Q := fun _ => Rep objs c) (fun s h => h) fun _ => ih _

theorem rep_harvest (fuel : Nat) (base : List Lit) :
    Tr (P := P) (C := C) env (Rep objs none) (harvest fuel base) (fun _ => Rep objs none) (RepEnd objs) :=
  Tr.getS fun _ => (rep_quiet.dbg _).bind fun _ => (rep_other _).bind fun _ =>
    Tr.loop (I := fun _ => Rep objs none) fuel () (fun u => rep_harvestBody fuel _ base u) fun _ _ h => h

theorem rep_lbBody (fuel : Nat) (u : Unit) :
    Tr (P := P) (C := C) env (Rep objs none) (lbBody fuel u) (BodyPost (fun _ => Rep objs none) (fun _ => Rep objs none))
      (RepEnd objs) := by
  refine Tr.getS fun s => (rep_call _).bind fun res => ?_
  split
  · exact (rep_harvest _ _).bind fun _ => Tr.pure fun _ h => h
  · refine rep_quiet.oracleCore.bind fun core => Tr.ite (fun _ => (rep_other _).bind fun _ => Tr.pure fun _ h => h) fun _ => ?_
    refine Tr.getS fun _ => Tr.bind (Q := fun _ => Rep objs none) ?_ fun _ => Tr.getS fun _ => (rep_quiet.dbg _).bind fun _ =>
      Tr.pure fun _ h => h
    exact Tr.getS fun _ => (rep_updateFenceLoop _ _).bind fun _ => Tr.getS fun _ => rep_other _
  · exact rep_quiet.panic

theorem rep_lbMain (fuel : Nat) :
    Tr (P := P) (C := C) env (Rep objs none) (lbMain fuel) (fun _ => Rep objs none) (RepEnd objs) :=
  Tr.getS fun _ => (rep_quiet.dbg _).bind fun _ => (rep_other _).bind fun _ =>
    Tr.bind (Q := fun _ => Rep objs none)
      (Tr.getS fun _ => Tr.ite (fun _ => rep_initFenceLoop _ _) fun _ => Tr.pure fun _ h => h) fun _ =>
    Tr.loop (I := fun _ => Rep objs none) fuel () (fun u => rep_lbBody fuel u) fun _ _ h => h

/-- One call of P-minimal or lower-bounding: each point that is reported has the costs of the last candidate. -/
theorem rep_solve (alg : Alg) (halg : alg ≠ .biOptSat) (fuel : Nat) (limits : Limits) {s : Slv P C} (h : Rep objs none s) :
    Rep objs none (alg.solve fuel limits env s).2 := by
  have hw : wp env (alg.solve fuel limits) (fun _ => Rep objs none) (RepEnd objs) s := by
    cases alg with
    | pMinimal =>
      show wp env (do startSolving limits; pminMain fuel) _ _ s
      rw [wp_bind]
      exact rep_pminMain fuel _ h
    | lowerBounding =>
      show wp env (do startSolving limits; lbMain fuel) _ _ s
      rw [wp_bind]
      exact rep_lbMain fuel _ h
    | biOptSat => exact absurd rfl halg
  unfold wp at hw
  revert hw
  generalize alg.solve fuel limits env s = r
  obtain ⟨r1, r2⟩ := r
  cases r1 <;> exact id

end Scuttle
