import Verif.Proof.Tighten
import Verif.Proof.IoLogic
import Verif.Proof.Io
import Verif.SpecLogTrue

/-!
# Messages about candidates

Whatever the limits are and however a run ends, the clauses of the oracle only grow, so each model of the oracle is a solution
of the problem. Hence, the costs that are logged are those of a solution, up to what tightening changes.
-/

set_option linter.unusedSectionVars false

namespace Scuttle

open Spec

/-- A problem: which assignments are solutions, the objectives, a bound on their variables, and whether tightening one
objective is known to leave the others alone. -/
structure CandCtx where
  good : Asg → Prop
  objs : List Objective
  n : Nat
  ex : Prop

/-- What a message says about candidates. -/
def CandCtx.Msg (x : CandCtx) : LogEvent → Prop
  | .candidate c _ => ∃ m, x.good m ∧ List.Forall₂ (· ≤ ·) (x.objs.map (icost · m)) c ∧ (x.ex → x.objs.map (icost · m) = c)
  | .heurImprovement i a b => ∃ o m m', x.objs[i]? = some o ∧ x.good m ∧ x.good m' ∧ icost o m = a ∧ icost o m' = b ∧
      ∀ o' ∈ x.objs, icost o' m' ≤ icost o' m
  | _ => True

/-- What is assumed. -/
structure CandOK (env : Env) (x : CandCtx) : Prop where
  orc : OracleOK env
  pos : 0 < x.n
  vars : ∀ o ∈ x.objs, ∀ p ∈ o.iter, p.1.var < x.n
  tok : env.tighten = true → ∀ o ∈ x.objs, (o.iter.map Prod.fst).Nodup ∧ ∀ p ∈ o.iter, 0 < p.2
  sep : x.ex → env.tighten = true → ∀ (i j : Nat) (o o' : Objective), i ≠ j → x.objs[i]? = some o → x.objs[j]? = some o' →
    ∀ p ∈ o.iter, p.1 ∉ o'.iter.map Prod.fst

variable {P C α β : Type} [UbEnc P] [UbEnc C] [LawfulUbEnc P] [LawfulUbEnc C]

/-- The invariant. -/
structure CandInv (x : CandCtx) (s : Slv P C) : Prop where
  db : ∀ m, cnfEval m s.k.db = true → x.good m
  objs : s.k.objs = x.objs
  next : x.n ≤ s.k.vm.nextVar
  below : ∀ (i : Nat) (e : ObjEnc P C), s.encs[i]? = some e → e.Below s.k.vm.nextVar
  log : ∀ l, s.io.logger = some l → ∀ e ∈ l, x.Msg e

variable {env : Env} {x : CandCtx} {s s' : Slv P C}

/-- A computation that keeps the invariant, however it ends. -/
def CKeep (env : Env) (x : CandCtx) (c : M P C α) : Prop := Tr env (CandInv x) c (fun _ => CandInv x) fun _ => CandInv x

/-- The oracle has a model. -/
def HasModel (x : CandCtx) (m : Asg) (s : Slv P C) : Prop := CandInv x s ∧ s.k.ostate = .sat m ∧ cnfEval m s.k.db = true

theorem CandInv.frame (h : CandInv x s) (h1 : s'.io.logger = s.io.logger) (h2 : s'.k.objs = s.k.objs)
    (h3 : ∀ c ∈ s.k.db, c ∈ s'.k.db) (h4 : s.k.vm.nextVar ≤ s'.k.vm.nextVar)
    (h5 : ∀ (i : Nat) (e : ObjEnc P C), s'.encs[i]? = some e → e.Below s'.k.vm.nextVar) : CandInv x s' where
  db := fun m hm => h.db m (by
    unfold cnfEval at hm ⊢
    rw [List.all_eq_true] at hm ⊢
    exact fun c hc => hm c (h3 c hc))
  objs := h2.trans h.objs
  next := Nat.le_trans h.next h4
  below := h5
  log := fun l hl => h.log l (by rw [← h1]; exact hl)

/-! ## Rules -/

theorem ck_bind {c : M P C α} {f : α → M P C β} (hc : CKeep env x c) (hf : ∀ a, CKeep env x (f a)) : CKeep env x (c >>= f) :=
  Tr.bind hc hf

theorem ck_pure (a : α) : CKeep (P := P) (C := C) env x (M.pure a) := fun _ h => h
theorem ck_stop (e : Stop) : CKeep (P := P) (C := C) (α := α) env x (stop e) := fun _ h => h

theorem ck_getS {f : Slv P C → M P C β} (h : ∀ s, CKeep env x (f s)) : CKeep env x (getS >>= f) := Tr.getS h

theorem ck_ite {p : Prop} [Decidable p] {c d : M P C α} (h1 : p → CKeep env x c) (h2 : ¬ p → CKeep env x d) :
    CKeep env x (if p then c else d) := Tr.ite h1 h2

theorem ck_dbg (b : Bool) : CKeep (P := P) (C := C) env x (dbg b) := fun s h => by
  rw [wp_dbg_iff]; split <;> exact h

theorem ck_unwrap (o : Option α) : CKeep (P := P) (C := C) env x (unwrap o) := fun s h => by cases o <;> exact h
theorem ck_orErr (o : Option α) : CKeep (P := P) (C := C) env x (orErr o) := fun s h => by cases o <;> exact h
theorem ck_ofExcept (r : Except Stop α) : CKeep (P := P) (C := C) env x (ofExcept r) := fun s h => by cases r <;> exact h
theorem ck_isDebug : CKeep (P := P) (C := C) env x isDebug := fun _ h => h
theorem ck_hasTightening : CKeep (P := P) (C := C) env x hasTightening := fun _ h => h

theorem ck_attempt {c : M P C α} (hc : CKeep env x c) : CKeep env x (attempt c) := fun s h => by
  refine wp_attempt (wp_mono (hc s h) (fun _ _ h => h) fun e _ h => ?_)
  cases e <;> exact h

theorem ck_loop {body : α → M P C (α ⊕ β)} (hb : ∀ a, CKeep env x (body a)) (fuel : Nat) (a : α) :
    CKeep env x (loopM body fuel a) := by
  refine Tr.loop (I := fun _ => CandInv x) fuel a (fun a s h => ?_) fun _ _ h => h
  exact wp_mono (hb a s h) (fun r _ h => by cases r <;> exact h) fun _ _ h => h

/-- Changes that only concern limits, statistics, the front or the fence. -/
theorem ck_modify {f : Slv P C → Slv P C} (h1 : ∀ s, (f s).io.logger = s.io.logger) (h2 : ∀ s, (f s).k = s.k)
    (h3 : ∀ s, (f s).encs = s.encs) : CKeep env x (modifyS f) := fun s h =>
  h.frame (s' := f s) (h1 s) (by rw [h2]) (by rw [h2]; exact fun _ h => h) (by rw [h2]) (by rw [h2, h3]; exact h.below)

theorem ck_bump (f : Stats → Stats) : CKeep (P := P) (C := C) env x (bumpStats f) :=
  ck_modify (fun _ => rfl) (fun _ => rfl) fun _ => rfl

theorem ck_check : CKeep (P := P) (C := C) env x checkTermination := fun s h => by
  refine wpio_check fun s' hs' => ?_
  subst hs'
  exact ⟨fun _ => h.frame rfl rfl (fun _ h => h) (Nat.le_refl _) h.below,
    fun _ => h.frame rfl rfl (fun _ h => h) (Nat.le_refl _) h.below⟩

theorem ck_stepLimit (get : Limits → Option Nat) (set : Option Nat → Limits → Limits) (t : Termination) :
    CKeep (P := P) (C := C) env x (stepLimit get set t) := fun s h => by
  unfold wp stepLimit
  cases countDown env.debug (get s.io.lims) with
  | none => exact h
  | some r =>
    obtain ⟨l, hit⟩ := r
    cases hit <;> exact h.frame rfl rfl (fun _ h => h) (Nat.le_refl _) h.below

/-- A message that says something true. -/
theorem CandInv.event {e : LogEvent} (h : CandInv x s) (he : x.Msg e) :
    wp env (logEvent e) (fun _ s' => CandInv x s' ∧ s'.k = s.k) (fun _ => CandInv x) s := by
  unfold wp logEvent
  cases hl : s.io.logger with
  | none => exact ⟨h, rfl⟩
  | some l =>
    cases env.logOk s.io.tick with
    | false => exact h.frame rfl rfl (fun _ h => h) (Nat.le_refl _) h.below
    | true =>
      refine ⟨⟨h.db, h.objs, h.next, h.below, fun l' hl' e' he' => ?_⟩, rfl⟩
      simp only [Option.some.injEq] at hl'
      subst hl'
      rcases List.mem_append.1 he' with h1 | h1
      · exact h.log l hl e' h1
      · rw [List.mem_singleton.1 h1]; exact he

theorem ck_logEvent {e : LogEvent} (he : x.Msg e) : CKeep (P := P) (C := C) env x (logEvent e) := fun _ h =>
  wp_mono (h.event he) (fun _ _ h => h.1) fun _ _ h => h

theorem ck_addClause (c : Clause) : CKeep (P := P) (C := C) env x (addClause c) := fun s h =>
  h.frame (s' := { s with k := { s.k with db := s.k.db ++ [c], ostate := .input } }) rfl rfl
    (fun _ h => List.mem_append_left _ h) (Nat.le_refl _) h.below

theorem ck_freshVar : CKeep (P := P) (C := C) env x freshVar := fun s h =>
  h.frame (s' := { s with k := { s.k with vm := s.k.vm.newVar.2 } }) rfl rfl (fun _ h => h) (Nat.le_succ _)
    fun i e he => ObjEnc.below_mono (h.below i e he) (Nat.le_succ _)

theorem ck_flipLit (l : Lit) : CKeep (P := P) (C := C) env x (flipLit l) := fun s h => by
  unfold wp flipLit
  cases s.k.ostate with
  | sat m =>
    dsimp only
    cases env.flip s.io.tick s.k.db s.k.frozen m l with
    | some m' => exact h.frame rfl rfl (fun _ h => h) (Nat.le_refl _) h.below
    | none => exact h
  | _ => exact h

/-- Applies the rules to a computation. -/
macro "ck_auto" : tactic => `(tactic| repeat' (first
  | with_reducible exact ck_pure _
  | with_reducible exact ck_stop _
  | with_reducible exact ck_dbg _
  | with_reducible exact ck_unwrap _
  | with_reducible exact ck_orErr _
  | with_reducible exact ck_ofExcept _
  | with_reducible exact ck_isDebug
  | with_reducible exact ck_hasTightening
  | with_reducible exact ck_bump _
  | with_reducible exact ck_check
  | with_reducible exact ck_stepLimit _ _ _
  | with_reducible exact ck_addClause _
  | with_reducible exact ck_freshVar
  | with_reducible exact ck_flipLit _
  | assumption
  | ((with_reducible refine ck_logEvent ?_); exact trivial)
  | (with_reducible refine ck_attempt ?_)
  | (with_reducible refine ck_getS fun _ => ?_)
  | (with_reducible refine ck_ite (fun _ => ?_) (fun _ => ?_))
  | (with_reducible refine ck_bind ?_ (fun _ => ?_))))

theorem ck_start (y : String) : CKeep (P := P) (C := C) env x (logRoutineStart y) := ck_logEvent trivial
theorem ck_end : CKeep (P := P) (C := C) env x logRoutineEnd := ck_logEvent trivial

theorem ck_addClauses (cs : List Clause) : CKeep (P := P) (C := C) env x (addClauses cs) := by
  induction cs with
  | nil => exact ck_pure _
  | cons c cs ih => exact ck_bind (ck_addClause c) fun _ => ih

theorem ck_oracleSolution : CKeep (P := P) (C := C) env x oracleSolution := by
  unfold oracleSolution
  refine ck_getS fun s => ck_bind (ck_unwrap _) fun v => ?_
  cases s.k.ostate <;> ck_auto

theorem ck_oracleCore : CKeep (P := P) (C := C) env x oracleCore := by
  unfold oracleCore
  refine ck_getS fun s => ?_
  cases s.k.ostate <;> ck_auto

theorem ck_oracleSolve (a : List Lit) : CKeep (P := P) (C := C) env x (oracleSolve a) := fun s h => by
  unfold wp oracleSolve
  dsimp only
  cases env.oracle s.io.tick s.k.conflLimited s.k.db a <;>
    exact h.frame rfl rfl (fun _ h => h) (Nat.le_refl _) h.below

theorem ck_logOracleCall (r : SolverResult) : CKeep (P := P) (C := C) env x (logOracleCall r) := by
  unfold logOracleCall; ck_auto

theorem ck_solveAssumps (a : List Lit) : CKeep (P := P) (C := C) env x (solveAssumps a) := by
  unfold solveAssumps
  exact ck_bind (ck_start _) fun _ => ck_bind (ck_oracleSolve a) fun r => ck_bind ck_end fun _ => ck_bind ck_check fun _ =>
    ck_bind (ck_logOracleCall r) fun _ => ck_pure _

/-- If the oracle has a model, it is one of its clauses. -/
def Backed (x : CandCtx) (s : Slv P C) : Prop := CandInv x s ∧ ∀ m, s.k.ostate = .sat m → cnfEval m s.k.db = true

theorem Backed.model {m : Asg} (h : Backed x s) (hm : s.k.ostate = .sat m) : HasModel x m s := ⟨h.1, hm, h.2 m hm⟩

/-- A computation that does not touch the kernel. -/
theorem Backed.of {c : M P C α} (hc : CKeep env x c) (hk : ∀ s, wp env c (fun _ s' => s'.k = s.k) (fun _ _ => True) s) :
    Tr env (Backed x) c (fun _ => Backed x) fun _ => CandInv x := fun s h => by
  have h1 := hc s h.1
  have h2 := hk s
  unfold wp at h1 h2 ⊢
  cases hr : c env s with
  | mk r s' =>
    rw [hr] at h1 h2
    cases r with
    | ok a => exact ⟨h1, fun m hm => by rw [h2] at hm ⊢; exact h.2 m hm⟩
    | error e => exact h1

theorem k_check (s : Slv P C) : wp env checkTermination (fun _ s' => s'.k = s.k) (fun _ _ => True) s :=
  wpio_check fun s' hs' => by subst hs'; exact ⟨fun _ => rfl, fun _ => trivial⟩

theorem k_logEvent (e : LogEvent) (s : Slv P C) : wp env (logEvent e) (fun _ s' => s'.k = s.k) (fun _ _ => True) s := by
  unfold wp logEvent
  cases s.io.logger with
  | none => rfl
  | some l => cases env.logOk s.io.tick <;> first | rfl | trivial

theorem k_logOracleCall (r : SolverResult) (s : Slv P C) :
    wp env (logOracleCall r) (fun _ s' => s'.k = s.k) (fun _ _ => True) s := by
  unfold logOracleCall bumpStats
  rw [wp_bind, wp_modifyS, wp_bind]
  refine wp_mono (k_logEvent _ _) (fun _ s1 h1 => ?_) fun _ _ h => h
  unfold wp stepLimit
  cases countDown env.debug s1.io.lims.oracleCalls with
  | none => trivial
  | some y => obtain ⟨l, hit⟩ := y; cases hit <;> first | exact h1 | trivial

theorem backed_check : Tr (P := P) (C := C) env (Backed x) checkTermination (fun _ => Backed x) fun _ => CandInv x :=
  Backed.of ck_check k_check

theorem backed_solve (ok : CandOK env x) (a : List Lit) : Tr (P := P) (C := C) env (CandInv x) (solveAssumps a)
    (fun _ => Backed x) fun _ => CandInv x := by
  unfold solveAssumps
  refine (ck_start _).bind fun _ => Tr.bind (Q := fun _ => Backed x) (fun s h => ?_) fun r => ?_
  · have h1 := ck_oracleSolve (env := env) a s h
    unfold wp oracleSolve at h1 ⊢
    dsimp only at h1 ⊢
    cases hr : env.oracle s.io.tick s.k.conflLimited s.k.db a with
    | sat m =>
      rw [hr] at h1
      exact ⟨h1, fun m' hm => by cases hm; exact (ok.orc.sat _ _ _ _ _ hr).1⟩
    | unsat c => rw [hr] at h1; exact ⟨h1, fun m' hm => by cases hm⟩
    | interrupted => rw [hr] at h1; exact ⟨h1, fun m' hm => by cases hm⟩
  · exact (Backed.of ck_end (k_logEvent _)).bind fun _ => backed_check.bind fun _ =>
      (Backed.of (ck_logOracleCall r) (k_logOracleCall r)).bind fun _ => Tr.pure fun _ h => h

/-! ## Costs -/

/-- Flipping literals of one objective does not change an objective with other literals. -/
theorem icost_congr {o : Objective} {m m' : Asg} (h : ∀ p ∈ o.iter, p.1.eval m' = p.1.eval m) : icost o m' = icost o m :=
  Nat.le_antisymm (linear_mono fun p hp he => by rw [← h p hp]; exact he) (linear_mono fun p hp he => by rw [h p hp]; exact he)

theorem cand_getCostTight (ok : CandOK env x) {oi : Nat} {o : Objective} (ho : x.objs[oi]? = some o) {n : Nat} (hn : x.n ≤ n)
    {m : Asg} (h : HasModel x m s) (t : Bool) :
    wp env (getCostTight oi (Assignment.ofModel m n) t) (fun r s' => ∃ m', HasModel x m' s' ∧ r.1 = icost o m' ∧
      r.2 = Assignment.ofModel m' n ∧ (∀ o' ∈ x.objs, icost o' m' ≤ icost o' m) ∧ ((env.tighten && t) = false → m' = m) ∧
      ∀ o' ∈ x.objs, (∀ p ∈ o'.iter, p.1 ∉ o.iter.map Prod.fst) → icost o' m' = icost o' m) (fun _ => CandInv x) s := by
  obtain ⟨hi, hm, hdb⟩ := h
  have hom := List.mem_of_getElem? ho
  have hnpos : 0 < n := Nat.lt_of_lt_of_le ok.pos hn
  have hvar : ∀ o ∈ s.k.objs, ∀ p ∈ o.iter, p.1.var < n := by
    rw [hi.objs]
    exact fun o ho p hp => Nat.lt_of_lt_of_le (ok.vars o ho p hp) hn
  have hcostOf : ∀ m', o.costOf (Assignment.ofModel m' n) = icost o m' := fun m' =>
    Objective.costOf_ofModel o m' n (hvar o (by rw [hi.objs]; exact hom))
  unfold getCostTight
  rw [wp_bind]
  show wp env (if (env.tighten && t) = true then _ else _) _ _ s
  split
  · next hfeat =>
    simp only [Bool.and_eq_true] at hfeat
    obtain ⟨hnd, hpos⟩ := ok.tok hfeat.1 o hom
    rw [wp_bind, wp_getS, wp_bind, hi.objs, ho, wp_unwrap_some, wp_bind]
    refine wp_tightenLoop ok.orc hvar (by rw [hi.objs]; exact hom) o.iter hnd (fun p h => h) hpos hm hdb
      (SolFits.ofModel hvar m) fun r m' h => ?_
    have hi' : CandInv x { s with k := { s.k with ostate := .sat m' } } :=
      hi.frame rfl rfl (fun _ h => h) (Nat.le_refl _) hi.below
    have hread : wp env (rereadSol o r) (fun sol s' => sol = Assignment.ofModel m' n ∧
        s' = { s with k := { s.k with ostate := .sat m' } }) (fun _ => CandInv x) { s with k := { s.k with ostate := .sat m' } } := by
      unfold rereadSol
      have hlen := h.fits.len
      split
      · rw [if_neg (by rw [List.isEmpty_iff]; intro h0; rw [h0] at hlen; simp at hlen; omega), wp_bind, wp_getS]
        dsimp only
        rw [wp_bind]
        refine wp_dbg ?_ ?_
        · rw [hlen, hcostOf, h.cost]; simp [icost]
        · rw [wp_pure, hlen]; exact ⟨rfl, rfl⟩
      · next h0 =>
        obtain ⟨rfl, h2⟩ := h.same (by omega)
        rw [wp_pure]
        exact ⟨h2, rfl⟩
    rw [wp_bind]
    refine wp_mono hread ?_ (fun _ _ h => h)
    rintro _ _ ⟨rfl, rfl⟩
    have hless : ∀ o' ∈ x.objs, icost o' m' ≤ icost o' m := fun o' ho' =>
      linear_mono fun p hp => h.less o' (by rw [hi.objs]; exact ho') p hp
    rw [wp_bind]
    refine wp_mono (hi'.event (e := .heurImprovement oi (r.1 + r.2.1) r.1)
      ⟨o, m, m', ho, hi.db m hdb, hi.db m' h.db, h.total.symm, h.cost.symm, hless⟩) (fun _ s2 h2 => ?_) fun _ _ h => h
    rw [wp_pure]
    refine ⟨m', ⟨h2.1, by rw [h2.2], by rw [h2.2]; exact h.db⟩, h.cost, rfl, hless, fun h0 => ?_, fun o' ho' hne => ?_⟩
    · rw [hfeat.1, hfeat.2] at h0; cases h0
    · exact icost_congr fun p hp => h.keep o' (by rw [hi.objs]; exact ho') p hp (hne p hp)
  · next hfeat =>
    rw [wp_bind]
    unfold getCost
    rw [wp_bind, wp_getS, wp_bind, hi.objs, ho, wp_unwrap_some, wp_pure, wp_pure, hcostOf]
    exact ⟨m, ⟨hi, hm, hdb⟩, rfl, rfl, fun _ _ => Nat.le_refl _, fun _ => rfl, fun _ _ _ => rfl⟩

theorem cand_tightCosts (ok : CandOK env x) {n : Nat} (hn : x.n ≤ n) (t : Bool) (j : Nat) :
    ∀ {s : Slv P C} {i : Nat} {m : Asg}, i + j = x.objs.length → HasModel x m s →
    wp env (tightCosts t j i (Assignment.ofModel m n)) (fun r s' => ∃ m', HasModel x m' s' ∧ r.2 = Assignment.ofModel m' n ∧
      (∀ o' ∈ x.objs, icost o' m' ≤ icost o' m) ∧ List.Forall₂ (· ≤ ·) ((x.objs.drop i).map (icost · m')) r.1 ∧
      (x.ex → (x.objs.drop i).map (icost · m') = r.1 ∧
        ∀ (a : Nat) (o : Objective), a < i → x.objs[a]? = some o → icost o m' = icost o m)) (fun _ => CandInv x) s := by
  induction j with
  | zero =>
    intro s i m hij h
    unfold tightCosts
    rw [wp_pure]
    have : x.objs.drop i = [] := List.drop_eq_nil_of_le (by omega)
    rw [this]
    exact ⟨m, h, rfl, fun _ _ => Nat.le_refl _, .nil, fun _ => ⟨rfl, fun _ _ _ _ => rfl⟩⟩
  | succ j ih =>
    intro s i m hij h
    unfold tightCosts
    have hlt : i < x.objs.length := by omega
    have ho : x.objs[i]? = some x.objs[i] := List.getElem?_eq_getElem hlt
    rw [wp_bind]
    refine wp_mono (cand_getCostTight ok ho hn h t) ?_ fun _ _ h => h
    rintro ⟨c, sol⟩ s1 ⟨m1, h1, rfl, rfl, hle1, hsm1, hk1⟩
    dsimp only
    rw [wp_bind]
    refine wp_mono (ih (i := i + 1) (by omega) h1) ?_ fun _ _ h => h
    rintro ⟨cs, sol⟩ s2 ⟨m2, h2, rfl, hle2, hc2, hk2⟩
    rw [wp_pure, List.drop_eq_getElem_cons hlt]
    simp only [List.map_cons]
    refine ⟨m2, h2, rfl, fun o ho => Nat.le_trans (hle2 o ho) (hle1 o ho), .cons (hle2 _ (List.getElem_mem hlt)) hc2, fun he => ?_⟩
    obtain ⟨hk2, hk3⟩ := hk2 he
    refine ⟨by rw [hk2, hk3 i _ (by omega) ho], fun a o ha hoa => ?_⟩
    rw [hk3 a o (by omega) hoa]
    by_cases htt : (env.tighten && t) = true
    · exact hk1 o (List.mem_of_getElem? hoa) (ok.sep he (by simp at htt; exact htt.1) a i o _ (by omega) hoa ho)
    · rw [hsm1 (by simpa using htt)]

/-- Continues with the model of the oracle. -/
theorem backed_oracleSolution (ok : CandOK env x) {Q : Assignment → Slv P C → Prop} (h : Backed x s)
    (hQ : ∀ m n, x.n ≤ n → HasModel x m s → Q (Assignment.ofModel m n) s) :
    wp env oracleSolution Q (fun _ => CandInv x) s := by
  cases hm : s.k.ostate with
  | sat m =>
    exact wp_oracleSolution hm (Nat.lt_of_lt_of_le ok.pos h.1.next) (hQ m _ h.1.next (h.model hm))
  | _ =>
    unfold oracleSolution
    rw [wp_bind, wp_getS, wp_bind]
    refine wp_mono (ck_unwrap _ s h.1) (fun _ s' h' => ?_) fun _ _ h => h
    rw [hm]
    exact h'

/-- The costs of the solution that the oracle has found are a candidate. -/
theorem cand_getSolutionAndCosts (ok : CandOK env x) (t : Bool) : Tr (P := P) (C := C) env (Backed x) (getSolutionAndCosts t)
    (fun r s' => CandInv x s' ∧ ∀ ph, x.Msg (.candidate r.1 ph)) (fun _ => CandInv x) := fun s h => by
  unfold getSolutionAndCosts
  rw [wp_bind]
  refine backed_oracleSolution ok h fun m n hn h => ?_
  rw [wp_bind, wp_getS, wp_bind, h.1.objs]
  refine wp_mono (cand_tightCosts ok hn t x.objs.length (i := 0) (by omega) h) ?_ fun _ _ h => h
  rintro ⟨c, sol⟩ s1 ⟨m1, h1, -, -, hc1, hx⟩
  rw [wp_bind]
  refine wp_mono (ck_dbg _ s1 h1.1) (fun _ s2 h2 => ?_) fun _ _ h => h
  rw [wp_pure]
  exact ⟨h2, fun _ => ⟨m1, h1.1.db m1 h1.2.2, hc1, fun he => (hx he).1⟩⟩

theorem ck_logCandidate {c : List Nat} {ph : Phase} (h : x.Msg (.candidate c ph)) :
    CKeep (P := P) (C := C) env x (logCandidate c ph) := by
  unfold logCandidate
  exact ck_getS fun s => ck_bind (ck_dbg _) fun _ => ck_bind (ck_bump _) fun _ => ck_bind (ck_logEvent h) fun _ => ck_stepLimit _ _ _

/-- Without an objective of that index, the cost is not computed. -/
theorem cand_noObj {oi : Nat} (ho : x.objs[oi]? = none) (sol : Assignment) (t : Bool) {Q : Nat × Assignment → Slv P C → Prop}
    (h : CandInv x s) : wp env (getCostTight oi sol t) Q (fun _ => CandInv x) s := by
  unfold getCostTight
  rw [wp_bind]
  show wp env (if (env.tighten && t) = true then _ else _) _ _ s
  split
  · rw [wp_bind, wp_getS, wp_bind, h.objs, ho]
    exact h
  · rw [wp_bind]
    unfold getCost
    rw [wp_bind, wp_getS, wp_bind, h.objs, ho]
    exact h

/-- The solution of the oracle is read and its cost determined. -/
theorem backed_solCost (ok : CandOK env x) (oi : Nat) (t : Bool) {f : Nat × Assignment → M P C α} (hf : ∀ r, CKeep env x (f r)) :
    Tr env (Backed x) (do
      let sol ← oracleSolution
      let r ← getCostTight oi sol t
      f r) (fun _ => CandInv x) fun _ => CandInv x := fun s h => by
  rw [wp_bind]
  refine backed_oracleSolution ok h fun m n hn h => ?_
  rw [wp_bind]
  cases ho : x.objs[oi]? with
  | none => exact cand_noObj ho _ _ h.1
  | some o =>
    refine wp_mono (cand_getCostTight ok ho hn h t) ?_ fun _ _ h => h
    rintro r s1 ⟨m1, h1, -⟩
    exact hf r s1 h1.1

/-! ## The rest of the kernel -/

theorem ck_getCost (i : Nat) (sol : Assignment) : CKeep (P := P) (C := C) env x (getCost i sol) := by
  unfold getCost; ck_auto

theorem ck_externalize (c : List Nat) : CKeep (P := P) (C := C) env x (externalize c) := by
  unfold externalize; ck_auto

theorem ck_blockSolution (sol : Assignment) : CKeep (P := P) (C := C) env x (blockSolution sol) := by
  unfold blockSolution
  refine ck_getS fun s => ?_
  split <;> ck_auto

theorem ck_unphaseSolution : CKeep (P := P) (C := C) env x unphaseSolution := by
  unfold unphaseSolution; ck_auto

theorem ck_logSolution : CKeep (P := P) (C := C) env x logSolution := by unfold logSolution; ck_auto
theorem ck_logNonDominated (p : NonDomPoint Assignment) : CKeep (P := P) (C := C) env x (logNonDominated p) := by
  unfold logNonDominated; ck_auto

theorem ck_collect (p : NonDomPoint Assignment) : CKeep (P := P) (C := C) env x (collect p) :=
  ck_modify (fun _ => rfl) (fun _ => rfl) fun _ => rfl

theorem ck_yieldBody (costs : List Nat) (assumps : List Lit) (st : NonDomPoint Assignment × Assignment) :
    CKeep (P := P) (C := C) env x (yieldBody costs assumps st) := by
  unfold yieldBody
  refine ck_getS fun s => ck_bind (ck_dbg _) fun _ => ck_bind (ck_attempt ck_logSolution) fun r => ?_
  have hn := fun p => ck_logNonDominated (P := P) (C := C) (env := env) (x := x) p
  cases r with
  | error e =>
    exact ck_bind (ck_attempt (hn _)) fun _ => ck_bind (ck_collect _) fun _ => ck_bind (ck_ofExcept _) fun _ => ck_stop _
  | ok u =>
    refine ck_ite (fun _ => ?_) fun _ => ?_
    · exact ck_bind (ck_attempt (hn _)) fun _ => ck_bind (ck_collect _) fun _ => ck_bind ck_end fun _ =>
        ck_bind (ck_ofExcept _) fun _ => ck_pure _
    · refine ck_bind ck_check fun _ => ck_bind (ck_blockSolution _) fun _ => ck_bind (ck_solveAssumps _) fun res => ?_
      refine ck_ite (fun _ => ?_) fun _ => ?_
      · exact ck_bind (ck_attempt (hn _)) fun _ => ck_bind (ck_collect _) fun _ => ck_bind ck_end fun _ =>
          ck_bind (ck_ofExcept _) fun _ => ck_pure _
      · exact ck_bind ck_check fun _ => ck_bind ck_oracleSolution fun _ => ck_pure _

theorem ck_yieldSolutions (fuel : Nat) (costs : List Nat) (assumps : List Lit) (sol : Assignment) :
    CKeep (P := P) (C := C) env x (yieldSolutions fuel costs assumps sol) := by
  unfold yieldSolutions
  exact ck_getS fun _ => ck_bind (ck_dbg _) fun _ => ck_bind (ck_start _) fun _ => ck_bind ck_unphaseSolution fun _ =>
    ck_bind (ck_externalize _) fun _ => ck_loop (fun st => ck_yieldBody _ _ st) _ _

theorem ck_encAt (i : Nat) : CKeep (P := P) (C := C) env x (encAt i) := by unfold encAt; ck_auto

theorem ck_extendEncoding (i lo hi : Nat) : CKeep (P := P) (C := C) env x (extendEncoding i lo hi) := fun s h => by
  unfold extendEncoding encAt
  rw [wp_bind, wp_getS, wp_bind, wp_bind, wp_getS]
  cases he : s.encs[i]? with
  | none => exact h
  | some e =>
    rw [wp_unwrap_some, wp_modifyS]
    have hs := ObjEnc.encodeUbChange_spec e lo hi s.k.vm.nextVar (h.below i e he)
    refine h.frame rfl rfl (fun _ h => List.mem_append_left _ h) hs.1 fun j e' he' => ?_
    dsimp only at he' ⊢
    rw [List.getElem?_set] at he'
    split at he'
    · split at he'
      · cases he'; exact hs.2.1
      · cases he'
    · exact ObjEnc.below_mono (h.below j e' he') hs.1

theorem ck_linsuBody (ok : CandOK env x) (oi ei : Nat) (base : List Lit) (lb : Nat) (st : Nat × Option Assignment) :
    CKeep (P := P) (C := C) env x (linsuBody oi ei base lb st) := by
  unfold linsuBody
  refine ck_ite (fun _ => ?_) fun _ => ck_pure _
  refine ck_bind (ck_extendEncoding _ _ _) fun _ => ck_bind (ck_encAt _) fun e => ck_bind (ck_unwrap _) fun ls =>
    (backed_solve ok _).bind fun res => ?_
  split
  · intro s h
    rw [wp_bind]
    refine backed_oracleSolution ok h fun m n hn h => ?_
    rw [wp_bind]
    unfold getCost
    rw [wp_bind, wp_getS, wp_bind]
    cases s.k.objs[oi]? with
    | none => exact h.1
    | some o =>
      rw [wp_unwrap_some, wp_pure, wp_bind, wp_dbg_iff]
      split
      · exact h.1
      · rw [wp_bind, wp_getS, wp_bind]
        refine wp_mono (ck_logCandidate ⟨m, h.1.db m h.2.2, ?_⟩ s h.1) (fun _ s1 h1 => h1) fun _ _ h => h
        have : x.objs.map (icost · m) = s.k.costsOf (Assignment.ofModel m n) := by
          unfold Kern.costsOf
          rw [h.1.objs]
          exact List.map_congr_left fun o ho => (Objective.costOf_ofModel o m n fun p hp =>
            Nat.lt_of_lt_of_le (ok.vars o ho p hp) hn).symm
        exact ⟨by rw [← this]; exact List.forall₂_same.2 fun _ _ => Nat.le_refl _, fun _ => this⟩
  · exact fun s h => h.1
  · exact fun s h => h.1

theorem ck_linsuFinish (ei : Nat) (base : List Lit) (st : Nat × Option Assignment) :
    CKeep (P := P) (C := C) env x (linsuFinish ei base st) := by
  unfold linsuFinish
  split
  · exact ck_bind ck_end fun _ => ck_pure _
  · exact ck_bind (ck_extendEncoding _ _ _) fun _ => ck_bind (ck_encAt _) fun e => ck_bind (ck_unwrap _) fun ls =>
      ck_bind (ck_solveAssumps _) fun _ => ck_bind (ck_dbg _) fun _ => ck_bind ck_oracleSolution fun _ =>
      ck_bind ck_end fun _ => ck_pure _

theorem ck_linsu (ok : CandOK env x) (fuel oi ei : Nat) (base : List Lit) (ub : Option (Nat × Option Assignment))
    (lb : Option Nat) : CKeep (P := P) (C := C) env x (linsu fuel oi ei base ub lb) := by
  have hrest : ∀ b, CKeep (P := P) (C := C) env x (do
      let st ← loopM (linsuBody oi ei base (lb.getD 0)) fuel b
      let r ← linsuFinish ei base st
      M.pure (some r)) := fun b =>
    ck_bind (ck_loop (fun st => ck_linsuBody ok oi ei base _ st) _ _) fun _ => ck_bind (ck_linsuFinish _ _ _) fun _ => ck_pure _
  unfold linsu
  refine ck_bind (ck_start _) fun _ => ?_
  split
  · exact hrest _
  · refine (backed_solve ok _).bind fun res => Tr.ite (fun _ => ?_) fun _ => backed_solCost ok oi true fun r => hrest _
    exact Tr.weaken (ck_bind ck_end fun _ => ck_pure _) (fun _ h => h.1) fun _ _ h => h

theorem ck_linsuYield (ok : CandOK env x) (fuel oi ei : Nat) (base : List Lit) (ub : Option (Nat × Option Assignment))
    (lb : Option Nat) : CKeep (P := P) (C := C) env x (linsuYield fuel oi ei base ub lb) := by
  unfold linsuYield
  refine ck_bind (ck_linsu ok _ _ _ _ _ _) fun r => ?_
  split
  · exact ck_pure _
  · exact ck_getS fun s => ck_bind (ck_dbg _) fun _ => ck_bind (ck_extendEncoding _ _ _) fun _ => ck_bind (ck_encAt _) fun e =>
      ck_bind (ck_unwrap _) fun ls => ck_bind (ck_yieldSolutions _ _ _ _) fun _ => ck_pure _

/-! ## P-minimal -/

theorem ck_domBlockLoop (cs : List Nat) : ∀ (i : Nat) (cl : Clause), CKeep (P := P) (C := C) env x (domBlockLoop i cs cl) := by
  induction cs with
  | nil => exact fun i cl => ck_pure _
  | cons c cs ih =>
    intro i cl
    unfold domBlockLoop
    refine ck_bind (ck_encAt i) fun e => ck_ite (fun _ => ih _ _) fun _ => ck_ite (fun _ => ih _ _) fun _ => ?_
    refine ck_bind (ck_extendEncoding _ _ _) fun _ => ck_bind (ck_encAt i) fun e => ck_bind (ck_orErr _) fun ls => ?_
    split
    · exact ih _ _
    · exact ck_bind (ck_dbg _) fun _ => ck_bind ck_freshVar fun v => ck_bind (ck_addClauses _) fun _ => ih _ _

theorem ck_dominatedBlockClause (costs : List Nat) : CKeep (P := P) (C := C) env x (dominatedBlockClause costs) := by
  unfold dominatedBlockClause
  exact ck_getS fun _ => ck_bind (ck_dbg _) fun _ => ck_domBlockLoop costs 0 []

theorem ck_tmpBlockDominated (costs : List Nat) : CKeep (P := P) (C := C) env x (tmpBlockDominated costs) := by
  unfold tmpBlockDominated
  exact ck_getS fun _ => ck_bind (ck_dbg _) fun _ => ck_bind (ck_dominatedBlockClause costs) fun _ => ck_bind ck_freshVar fun _ =>
    ck_bind (ck_addClause _) fun _ => ck_pure _

theorem ck_enforceDomEncode (cs : List Nat) : ∀ i, CKeep (P := P) (C := C) env x (enforceDomEncode i cs) := by
  induction cs with
  | nil => exact fun i => ck_pure _
  | cons c cs ih => exact fun i => ck_bind (ck_extendEncoding _ _ _) fun _ => ih _

theorem ck_enforceDomLits (cs : List Nat) : ∀ i, CKeep (P := P) (C := C) env x (enforceDomLits i cs) := by
  induction cs with
  | nil => exact fun i => ck_pure _
  | cons c cs ih =>
    exact fun i => ck_bind (ck_encAt _) fun _ => ck_bind (ck_unwrap _) fun _ => ck_bind (ih _) fun _ => ck_pure _

theorem ck_enforceDominating (costs : List Nat) : CKeep (P := P) (C := C) env x (enforceDominating costs) := by
  unfold enforceDominating
  exact ck_getS fun _ => ck_bind (ck_dbg _) fun _ => ck_bind (ck_enforceDomEncode _ _) fun _ => ck_enforceDomLits _ _

theorem ck_commitBlock (bs : Option Lit) : CKeep (P := P) (C := C) env x (commitBlock bs) := by
  cases bs
  · exact ck_pure _
  · exact ck_addClause _

theorem ck_pminBlock (base : List Lit) (costs : List Nat) (bs : Option Lit) :
    CKeep (P := P) (C := C) env x (pminBlock base costs bs) := by
  unfold pminBlock
  exact ck_getS fun _ => ck_ite
    (fun _ => ck_bind (ck_dominatedBlockClause _) fun _ => ck_bind (ck_addClause _) fun _ => ck_pure _)
    fun _ => ck_bind (ck_commitBlock _) fun _ => ck_bind (ck_tmpBlockDominated _) fun _ => ck_pure _

/-- A candidate is determined and logged. -/
theorem backed_candidate (ok : CandOK env x) (ph : Phase) {f : List Nat × Assignment → M P C α} (hf : ∀ r, CKeep env x (f r)) :
    Tr env (Backed x) (do
      checkTermination
      let s ← getS
      let r ← getSolutionAndCosts (s.k.opts.solutionTightening.wanted ph)
      logCandidate r.1 ph
      checkTermination
      f r) (fun _ => CandInv x) fun _ => CandInv x := by
  refine backed_check.bind fun _ => Tr.getS fun s => (cand_getSolutionAndCosts ok _).bind fun r s h => ?_
  exact (ck_bind (ck_logCandidate (h.2 ph)) fun _ => ck_bind ck_check fun _ => hf r) s h.1

theorem ck_pminBody (ok : CandOK env x) (base : List Lit) (st : PMinState) :
    CKeep (P := P) (C := C) env x (pminBody base st) := by
  unfold pminBody
  refine ck_bind (ck_pminBlock _ _ _) fun r => ?_
  obtain ⟨bs, pre⟩ := r
  refine ck_bind (ck_enforceDominating _) fun dom => (backed_solve ok _).bind fun res => Tr.ite (fun _ => ?_) fun _ =>
    backed_candidate ok .minimization fun r => ck_pure _
  exact Tr.weaken (ck_bind ck_end fun _ => ck_pure _) (fun _ h => h.1) fun _ _ h => h

theorem ck_pMinimization (ok : CandOK env x) (fuel : Nat) (costs : List Nat) (sol : Assignment) (base : List Lit) :
    CKeep (P := P) (C := C) env x (pMinimization fuel costs sol base) := by
  unfold pMinimization
  exact ck_getS fun _ => ck_bind (ck_dbg _) fun _ => ck_bind (ck_start _) fun _ => ck_loop (fun st => ck_pminBody ok base st) _ _

theorem ck_harvestBody (ok : CandOK env x) (fuel : Nat) (assumps base : List Lit) (u : Unit) :
    CKeep (P := P) (C := C) env x (harvestBody fuel assumps base u) := by
  unfold harvestBody
  refine (backed_solve ok _).bind fun res => Tr.ite (fun _ => ?_) fun _ => backed_candidate ok .outerLoop fun r => ?_
  · exact Tr.weaken (ck_bind ck_end fun _ => ck_pure _) (fun _ h => h.1) fun _ _ h => h
  · exact ck_bind (ck_pMinimization ok _ _ _ _) fun r => ck_bind (ck_enforceDominating _) fun _ =>
      ck_bind (ck_yieldSolutions _ _ _ _) fun _ => ck_bind (ck_commitBlock _) fun _ => ck_pure _

theorem ck_pminMain (ok : CandOK env x) (fuel : Nat) : CKeep (P := P) (C := C) env x (pminMain fuel) := by
  unfold pminMain
  exact ck_getS fun _ => ck_bind (ck_dbg _) fun _ => ck_bind (ck_start _) fun _ =>
    ck_loop (fun u => ck_harvestBody ok fuel [] [] u) _ _

/-! ## LowerBounding -/

theorem ck_updateFenceLoop (core : List Lit) : ∀ found, CKeep (P := P) (C := C) env x (updateFenceLoop core found) := by
  induction core with
  | nil => exact fun _ => ck_pure _
  | cons l core ih =>
    intro found
    unfold updateFenceLoop
    refine ck_getS fun s => ?_
    split
    · exact ih _
    · exact ck_bind (ck_unwrap _) fun _ => ck_bind (ck_encAt _) fun _ => ck_bind (ck_unwrap _) fun _ =>
        ck_bind (ck_extendEncoding _ _ _) fun _ => ck_bind (ck_encAt _) fun _ => ck_bind (ck_unwrap _) fun _ =>
        ck_bind (ck_modify (fun _ => rfl) (fun _ => rfl) fun _ => rfl) fun _ => ih _

theorem ck_updateFence (core : List Lit) : CKeep (P := P) (C := C) env x (updateFence core) := by
  unfold updateFence
  exact ck_getS fun _ => ck_bind (ck_updateFenceLoop _ _) fun _ => ck_getS fun _ => ck_logEvent trivial

theorem ck_harvest (ok : CandOK env x) (fuel : Nat) (base : List Lit) : CKeep (P := P) (C := C) env x (harvest fuel base) := by
  unfold harvest
  exact ck_getS fun _ => ck_bind (ck_dbg _) fun _ => ck_bind (ck_start _) fun _ =>
    ck_loop (fun u => ck_harvestBody ok fuel _ base u) _ _

theorem ck_initFenceLoop (n : Nat) : ∀ i, CKeep (P := P) (C := C) env x (initFenceLoop i n) := by
  induction n with
  | zero => exact fun _ => ck_pure _
  | succ n ih =>
    intro i
    unfold initFenceLoop
    exact ck_bind (ck_encAt _) fun _ => ck_bind (ck_extendEncoding _ _ _) fun _ => ck_bind (ck_encAt _) fun _ =>
      ck_bind (ck_unwrap _) fun _ => ck_bind (ck_modify (fun _ => rfl) (fun _ => rfl) fun _ => rfl) fun _ => ih _

theorem ck_initFence : CKeep (P := P) (C := C) env x initFence := by
  unfold initFence
  exact ck_getS fun _ => ck_ite (fun _ => ck_initFenceLoop _ _) fun _ => ck_pure _

theorem ck_lbBody (ok : CandOK env x) (fuel : Nat) (u : Unit) : CKeep (P := P) (C := C) env x (lbBody fuel u) := by
  unfold lbBody
  refine ck_getS fun s => ck_bind (ck_solveAssumps _) fun res => ?_
  split
  · exact ck_bind (ck_harvest ok _ _) fun _ => ck_pure _
  · refine ck_bind ck_oracleCore fun core => ck_ite (fun _ => ck_bind ck_end fun _ => ck_pure _) fun _ => ?_
    exact ck_getS fun _ => ck_bind (ck_updateFence _) fun _ => ck_getS fun _ => ck_bind (ck_dbg _) fun _ => ck_pure _
  · exact ck_stop _

theorem ck_lbMain (ok : CandOK env x) (fuel : Nat) : CKeep (P := P) (C := C) env x (lbMain fuel) := by
  unfold lbMain
  exact ck_getS fun _ => ck_bind (ck_dbg _) fun _ => ck_bind (ck_start _) fun _ => ck_bind ck_initFence fun _ =>
    ck_loop (fun u => ck_lbBody ok fuel u) _ _

/-! ## BiOptSat -/

theorem ck_bosNext (ok : CandOK env x) (incObj : Nat) (base : List Lit) (incCost decCost : Nat) :
    CKeep (P := P) (C := C) env x (bosNext incObj base incCost decCost) := by
  unfold bosNext
  refine ck_bind (ck_extendEncoding _ _ _) fun _ => ck_bind (ck_encAt _) fun _ => ck_bind (ck_orErr _) fun _ =>
    ck_bind (ck_addClauses _) fun _ => (backed_solve ok _).bind fun res => ?_
  split
  · exact backed_solCost ok incObj true fun r => ck_pure _
  · exact Tr.weaken (ck_bind ck_end fun _ => ck_pure _) (fun _ h => h.1) fun _ _ h => h
  · exact fun s h => h.1

theorem ck_bosBody (ok : CandOK env x) (fuel incObj decObj : Nat) (base : List Lit) (decLb : Nat) (lookup : Nat → Option Nat)
    (st : BosState) : CKeep (P := P) (C := C) env x (bosBody fuel incObj decObj base decLb lookup st) := by
  unfold bosBody
  refine ck_bind (ck_linsu ok _ _ _ _ _ _) fun r => ?_
  split
  · exact ck_bind ck_end fun _ => ck_pure _
  · refine ck_bind (ck_getCost _ _) fun dc => ck_bind ?_ fun dc => ck_ite
      (fun _ => ck_bind ck_end fun _ => ck_pure _) fun _ => ck_bosNext ok _ _ _ _
    split
    · exact ck_pure _
    · exact ck_bind (ck_extendEncoding _ _ _) fun _ => ck_bind (ck_encAt _) fun _ => ck_bind (ck_unwrap _) fun _ =>
        ck_bind (ck_linsuYield ok _ _ _ _ _ _) fun _ => ck_bind (ck_unwrap _) fun _ => ck_pure _

theorem ck_bosMain (ok : CandOK env x) (fuel : Nat) : CKeep (P := P) (C := C) env x (bosMain fuel) := by
  unfold bosMain bioptsat
  refine ck_bind (ck_start _) fun _ => ck_getS fun s => ck_bind (ck_dbg _) fun _ => ck_bind (ck_encAt _) fun _ =>
    ck_bind (ck_encAt _) fun _ => ?_
  refine (backed_solve ok _).bind fun res => Tr.ite (fun _ => Tr.pure fun _ h => h.1) fun _ => ?_
  exact backed_solCost ok 0 true fun r => ck_loop (fun st => ck_bosBody ok fuel 0 1 [] _ _ st) _ _

/-- Every call of the three algorithms keeps the messages true. -/
theorem ck_solve (ok : CandOK env x) (alg : Alg) (fuel : Nat) (limits : Limits) :
    CKeep (P := P) (C := C) env x (alg.solve fuel limits) := by
  have h0 : CKeep (P := P) (C := C) env x (startSolving limits) := ck_modify (fun _ => rfl) (fun _ => rfl) fun _ => rfl
  cases alg with
  | pMinimal => exact ck_bind h0 fun _ => ck_pminMain ok fuel
  | lowerBounding => exact ck_bind h0 fun _ => ck_lbMain ok fuel
  | biOptSat => exact ck_bind h0 fun _ => ck_bosMain ok fuel

theorem CandInv.calls (ok : CandOK env x) (alg : Alg) (cs : List Call) : ∀ {s : Slv P C}, CandInv x s →
    CandInv x (alg.calls env cs s).2 := by
  induction cs with
  | nil => exact fun h => h
  | cons c cs ih =>
    intro s h
    cases c with
    | solve fuel limits =>
      refine ih ?_
      have h1 := ck_solve ok alg fuel limits s h
      unfold wp at h1
      cases hr : alg.solve fuel limits env s with
      | mk r s' => rw [hr] at h1; cases r <;> exact h1
    | attachLogger =>
      refine ih (s := s.attachLogger) ⟨h.db, h.objs, h.next, h.below, fun l hl e he => ?_⟩
      cases hl; cases he
    | detachLogger =>
      refine ih (s := s.detachLogger) ⟨h.db, h.objs, h.next, h.below, fun l hl e he => ?_⟩
      cases hl

end Scuttle
