import Verif.Proof.CandLog
import Verif.Proof.EncSteps

/-!
# Candidates are not weakly dominated by earlier ones

The cone above each candidate is blocked before the oracle is asked for the next one. Only the soundness of the blocking
clauses matters for this, and that the clauses in the oracle only grow, so it holds for every way in which a run may end.
-/

set_option linter.unusedSectionVars false

namespace Scuttle

open Spec

/-- A problem, the options, the candidates logged before a call and those logged since then. -/
structure DCtx extends CandCtx where
  opts : KernelOptions
  pre : List (List Nat)
  old : List (List Nat)

/-- The same with other restrictions on the models and other candidates. -/
def DCtx.upd (y : DCtx) (G : Asg → Prop) (L : List (List Nat)) : DCtx := { y with good := G, old := L }

/-- The message is not about a candidate. -/
def NotCand : LogEvent → Prop
  | .candidate _ _ => False
  | _ => True

variable {P C α β : Type} [UbEnc P] [UbEnc C] [LawfulUbEnc P] [LawfulUbEnc C]

/-- The invariant. -/
structure DInv (y : DCtx) (s : Slv P C) : Prop where
  db : ∀ m, cnfEval m s.k.db = true → y.good m
  objs : s.k.objs = y.objs
  next : y.n ≤ s.k.vm.nextVar
  below : ∀ (i : Nat) (e : ObjEnc P C), s.encs[i]? = some e → e.Below s.k.vm.nextVar
  opts : s.k.opts = y.opts
  enc : ∀ m, cnfEval m s.k.db = true → ∀ (i : Nat) (e : ObjEnc P C) (o : Objective), s.encs[i]? = some e →
    y.objs[i]? = some o → e.Sound o m
  log : ∀ l, s.io.logger = some l → (candidates l).map Prod.fst = y.pre ++ y.old

variable {env : Env} {y : DCtx} {s s' : Slv P C}

/-- A computation that keeps the invariant, however it ends. -/
def DistKeep (env : Env) (y : DCtx) (c : M P C α) : Prop := Tr env (DInv y) c (fun _ => DInv y) fun _ => DInv y

/-- The oracle has a model. -/
def DModel (y : DCtx) (m : Asg) (s : Slv P C) : Prop := DInv y s ∧ s.k.ostate = .sat m ∧ cnfEval m s.k.db = true

theorem cnfEval_subset {m : Asg} {a b : List Clause} (h : ∀ c ∈ a, c ∈ b) (hb : cnfEval m b = true) : cnfEval m a = true := by
  unfold cnfEval at hb ⊢
  rw [List.all_eq_true] at hb ⊢
  exact fun c hc => hb c (h c hc)

theorem DInv.frame (h : DInv y s) (h1 : s'.io.logger = s.io.logger) (h2 : s'.k.objs = s.k.objs)
    (h3 : ∀ c ∈ s.k.db, c ∈ s'.k.db) (h4 : s.k.vm.nextVar ≤ s'.k.vm.nextVar) (h5 : s'.encs = s.encs)
    (h6 : s'.k.opts = s.k.opts) : DInv y s' where
  db := fun m hm => h.db m (cnfEval_subset h3 hm)
  objs := h2.trans h.objs
  next := Nat.le_trans h.next h4
  below := fun i e he => ObjEnc.below_mono (h.below i e (by rw [← h5]; exact he)) h4
  opts := h6.trans h.opts
  enc := fun m hm i e o he ho => h.enc m (cnfEval_subset h3 hm) i e o (by rw [← h5]; exact he) ho
  log := fun l hl => h.log l (by rw [← h1]; exact hl)

/-- More is known about the models. -/
theorem DInv.upd {G : Asg → Prop} (h : DInv y s) (hG : ∀ m, cnfEval m s.k.db = true → G m) : DInv (y.upd G y.old) s :=
  ⟨hG, h.objs, h.next, h.below, h.opts, h.enc, h.log⟩

/-! ## Rules -/

theorem dk_bind {c : M P C α} {f : α → M P C β} (hc : DistKeep env y c) (hf : ∀ a, DistKeep env y (f a)) : DistKeep env y (c >>= f) :=
  Tr.bind hc hf

theorem dk_pure (a : α) : DistKeep (P := P) (C := C) env y (M.pure a) := fun _ h => h
theorem dk_stop (e : Stop) : DistKeep (P := P) (C := C) (α := α) env y (stop e) := fun _ h => h

theorem dk_getS {f : Slv P C → M P C β} (h : ∀ s, DistKeep env y (f s)) : DistKeep env y (getS >>= f) := Tr.getS h

theorem dk_ite {p : Prop} [Decidable p] {c d : M P C α} (h1 : p → DistKeep env y c) (h2 : ¬ p → DistKeep env y d) :
    DistKeep env y (if p then c else d) := Tr.ite h1 h2

theorem dk_dbg (b : Bool) : DistKeep (P := P) (C := C) env y (dbg b) := fun s h => by
  rw [wp_dbg_iff]; split <;> exact h

theorem dk_unwrap (o : Option α) : DistKeep (P := P) (C := C) env y (unwrap o) := fun s h => by cases o <;> exact h
theorem dk_orErr (o : Option α) : DistKeep (P := P) (C := C) env y (orErr o) := fun s h => by cases o <;> exact h
theorem dk_ofExcept (r : Except Stop α) : DistKeep (P := P) (C := C) env y (ofExcept r) := fun s h => by cases r <;> exact h
theorem dk_isDebug : DistKeep (P := P) (C := C) env y isDebug := fun _ h => h
theorem dk_hasTightening : DistKeep (P := P) (C := C) env y hasTightening := fun _ h => h

theorem dk_attempt {c : M P C α} (hc : DistKeep env y c) : DistKeep env y (attempt c) := fun s h => by
  refine wp_attempt (wp_mono (hc s h) (fun _ _ h => h) fun e _ h => ?_)
  cases e <;> exact h

theorem dk_loop {body : α → M P C (α ⊕ β)} (hb : ∀ a, DistKeep env y (body a)) (fuel : Nat) (a : α) :
    DistKeep env y (loopM body fuel a) := by
  refine Tr.loop (I := fun _ => DInv y) fuel a (fun a s h => ?_) fun _ _ h => h
  exact wp_mono (hb a s h) (fun r _ h => by cases r <;> exact h) fun _ _ h => h

/-- Changes that only concern limits, statistics, the front or the fence. -/
theorem dk_modify {f : Slv P C → Slv P C} (h1 : ∀ s, (f s).io.logger = s.io.logger) (h2 : ∀ s, (f s).k = s.k)
    (h3 : ∀ s, (f s).encs = s.encs) : DistKeep env y (modifyS f) := fun s h =>
  h.frame (s' := f s) (h1 s) (by rw [h2]) (by rw [h2]; exact fun _ h => h) (by rw [h2]) (h3 s) (by rw [h2])

theorem dk_bump (f : Stats → Stats) : DistKeep (P := P) (C := C) env y (bumpStats f) :=
  dk_modify (fun _ => rfl) (fun _ => rfl) fun _ => rfl

theorem dk_check : DistKeep (P := P) (C := C) env y checkTermination := fun s h => by
  refine wpio_check fun s' hs' => ?_
  subst hs'
  exact ⟨fun _ => h.frame rfl rfl (fun _ h => h) (Nat.le_refl _) rfl rfl,
    fun _ => h.frame rfl rfl (fun _ h => h) (Nat.le_refl _) rfl rfl⟩

theorem dk_stepLimit (get : Limits → Option Nat) (set : Option Nat → Limits → Limits) (t : Termination) :
    DistKeep (P := P) (C := C) env y (stepLimit get set t) := fun s h => by
  unfold wp stepLimit
  cases countDown env.debug (get s.io.lims) with
  | none => exact h
  | some r =>
    obtain ⟨l, hit⟩ := r
    cases hit <;> exact h.frame rfl rfl (fun _ h => h) (Nat.le_refl _) rfl rfl

/-- A message that is not about a candidate. -/
theorem DInv.event {e : LogEvent} (h : DInv y s) (he : NotCand e) :
    wp env (logEvent e) (fun _ s' => DInv y s' ∧ s'.k = s.k) (fun _ => DInv y) s := by
  unfold wp logEvent
  cases hl : s.io.logger with
  | none => exact ⟨h, rfl⟩
  | some l =>
    cases env.logOk s.io.tick with
    | false => exact h.frame rfl rfl (fun _ h => h) (Nat.le_refl _) rfl rfl
    | true =>
      refine ⟨⟨h.db, h.objs, h.next, h.below, h.opts, h.enc, fun l' hl' => ?_⟩, rfl⟩
      simp only [Option.some.injEq] at hl'
      subst hl'
      rw [← h.log l hl]
      unfold candidates
      rw [List.filterMap_append]
      cases e <;> first | exact he.elim | simp

theorem dk_logEvent {e : LogEvent} (he : NotCand e) : DistKeep (P := P) (C := C) env y (logEvent e) := fun _ h =>
  wp_mono (h.event he) (fun _ _ h => h.1) fun _ _ h => h

theorem dk_addClause (c : Clause) : DistKeep (P := P) (C := C) env y (addClause c) := fun s h =>
  h.frame (s' := { s with k := { s.k with db := s.k.db ++ [c], ostate := .input } }) rfl rfl
    (fun _ h => List.mem_append_left _ h) (Nat.le_refl _) rfl rfl

theorem dk_freshVar : DistKeep (P := P) (C := C) env y freshVar := fun s h =>
  h.frame (s' := { s with k := { s.k with vm := s.k.vm.newVar.2 } }) rfl rfl (fun _ h => h) (Nat.le_succ _) rfl rfl

theorem dk_flipLit (l : Lit) : DistKeep (P := P) (C := C) env y (flipLit l) := fun s h => by
  unfold wp flipLit
  cases s.k.ostate with
  | sat m =>
    dsimp only
    cases env.flip s.io.tick s.k.db s.k.frozen m l with
    | some m' => exact h.frame rfl rfl (fun _ h => h) (Nat.le_refl _) rfl rfl
    | none => exact h
  | _ => exact h

/-- Applies the rules to a computation. -/
macro "dk_auto" : tactic => `(tactic| repeat' (first
  | with_reducible exact dk_pure _
  | with_reducible exact dk_stop _
  | with_reducible exact dk_dbg _
  | with_reducible exact dk_unwrap _
  | with_reducible exact dk_orErr _
  | with_reducible exact dk_ofExcept _
  | with_reducible exact dk_isDebug
  | with_reducible exact dk_hasTightening
  | with_reducible exact dk_bump _
  | with_reducible exact dk_check
  | with_reducible exact dk_stepLimit _ _ _
  | with_reducible exact dk_addClause _
  | with_reducible exact dk_freshVar
  | with_reducible exact dk_flipLit _
  | assumption
  | ((with_reducible refine dk_logEvent ?_); exact trivial)
  | (with_reducible refine dk_attempt ?_)
  | (with_reducible refine dk_getS fun _ => ?_)
  | (with_reducible refine dk_ite (fun _ => ?_) (fun _ => ?_))
  | (with_reducible refine dk_bind ?_ (fun _ => ?_))))

theorem dk_start (x : String) : DistKeep (P := P) (C := C) env y (logRoutineStart x) := dk_logEvent trivial
theorem dk_end : DistKeep (P := P) (C := C) env y logRoutineEnd := dk_logEvent trivial

theorem dk_addClauses (cs : List Clause) : DistKeep (P := P) (C := C) env y (addClauses cs) := by
  induction cs with
  | nil => exact dk_pure _
  | cons c cs ih => exact dk_bind (dk_addClause c) fun _ => ih

theorem dk_oracleSolution : DistKeep (P := P) (C := C) env y oracleSolution := by
  unfold oracleSolution
  refine dk_getS fun s => dk_bind (dk_unwrap _) fun v => ?_
  cases s.k.ostate <;> dk_auto

theorem dk_oracleCore : DistKeep (P := P) (C := C) env y oracleCore := by
  unfold oracleCore
  refine dk_getS fun s => ?_
  cases s.k.ostate <;> dk_auto

theorem dk_oracleSolve (a : List Lit) : DistKeep (P := P) (C := C) env y (oracleSolve a) := fun s h => by
  unfold wp oracleSolve
  dsimp only
  cases env.oracle s.io.tick s.k.conflLimited s.k.db a <;>
    exact h.frame rfl rfl (fun _ h => h) (Nat.le_refl _) rfl rfl

theorem dk_logOracleCall (r : SolverResult) : DistKeep (P := P) (C := C) env y (logOracleCall r) := by
  unfold logOracleCall; dk_auto

theorem dk_solveAssumps (a : List Lit) : DistKeep (P := P) (C := C) env y (solveAssumps a) := by
  unfold solveAssumps
  exact dk_bind (dk_start _) fun _ => dk_bind (dk_oracleSolve a) fun r => dk_bind dk_end fun _ => dk_bind dk_check fun _ =>
    dk_bind (dk_logOracleCall r) fun _ => dk_pure _


/-- If the oracle has a model, it is one of its clauses and of the assumptions. -/
def DBack (y : DCtx) (a : List Lit) (s : Slv P C) : Prop :=
  DInv y s ∧ ∀ m, s.k.ostate = .sat m → cnfEval m s.k.db = true ∧ cubeEval m a = true

/-- A computation that does not touch the kernel. -/
theorem DBack.of {a : List Lit} {c : M P C α} (hc : DistKeep env y c)
    (hk : ∀ s, wp env c (fun _ s' => s'.k = s.k) (fun _ _ => True) s) :
    Tr env (DBack y a) c (fun _ => DBack y a) fun _ => DInv y := fun s h => by
  have h1 := hc s h.1
  have h2 := hk s
  unfold wp at h1 h2 ⊢
  cases hr : c env s with
  | mk r s' =>
    rw [hr] at h1 h2
    cases r with
    | ok b => exact ⟨h1, fun m hm => by rw [h2] at hm ⊢; exact h.2 m hm⟩
    | error e => exact h1

theorem db_check {a : List Lit} : Tr (P := P) (C := C) env (DBack y a) checkTermination (fun _ => DBack y a) fun _ => DInv y :=
  DBack.of dk_check k_check

theorem db_solve (ok : CandOK env y.toCandCtx) (a : List Lit) : Tr (P := P) (C := C) env (DInv y) (solveAssumps a)
    (fun _ => DBack y a) fun _ => DInv y := by
  unfold solveAssumps
  refine (dk_start _).bind fun _ => Tr.bind (Q := fun _ => DBack y a) (fun s h => ?_) fun r => ?_
  · have h1 := dk_oracleSolve (env := env) a s h
    unfold wp oracleSolve at h1 ⊢
    dsimp only at h1 ⊢
    cases hr : env.oracle s.io.tick s.k.conflLimited s.k.db a with
    | sat m =>
      rw [hr] at h1
      exact ⟨h1, fun m' hm => by cases hm; exact ok.orc.sat _ _ _ _ _ hr⟩
    | unsat c => rw [hr] at h1; exact ⟨h1, fun m' hm => by cases hm⟩
    | interrupted => rw [hr] at h1; exact ⟨h1, fun m' hm => by cases hm⟩
  · exact (DBack.of dk_end (k_logEvent _)).bind fun _ => db_check.bind fun _ =>
      (DBack.of (dk_logOracleCall r) (k_logOracleCall r)).bind fun _ => Tr.pure fun _ h => h

/-! ## Costs -/

theorem dc_getCostTight (ok : CandOK env y.toCandCtx) {oi : Nat} {o : Objective} (ho : y.objs[oi]? = some o) {n : Nat}
    (hn : y.n ≤ n) {m : Asg} (h : DModel y m s) (t : Bool) :
    wp env (getCostTight oi (Assignment.ofModel m n) t) (fun r s' => ∃ m', DModel y m' s' ∧ r.1 = icost o m' ∧
      r.2 = Assignment.ofModel m' n ∧ ∀ o' ∈ y.objs, icost o' m' ≤ icost o' m) (fun _ => DInv y) s := by
  obtain ⟨hi, hm, hdb⟩ := h
  have hom := List.mem_of_getElem? ho
  have hnpos : 0 < n := Nat.lt_of_lt_of_le ok.pos hn
  have hvar : ∀ o ∈ s.k.objs, ∀ p ∈ o.iter, p.1.var < n := by
    rw [hi.objs]
    exact fun o ho p hp => Nat.lt_of_lt_of_le (ok.vars o ho p hp) hn
  have hcostOf : ∀ m', o.costOf (Assignment.ofModel m' n) = icost o m' := fun m' =>
    Objective.costOf_ofModel o m' n (hvar o (by rw [hi.objs]; exact hom))
  unfold getCostTight
  rw [wp_bind]
  show wp env (if (env.tighten && t) = true then _ else _) _ _ s
  split
  · next hfeat =>
    simp only [Bool.and_eq_true] at hfeat
    obtain ⟨hnd, hpos⟩ := ok.tok hfeat.1 o hom
    rw [wp_bind, wp_getS, wp_bind, hi.objs, ho, wp_unwrap_some, wp_bind]
    refine wp_tightenLoop ok.orc hvar (by rw [hi.objs]; exact hom) o.iter hnd (fun p h => h) hpos hm hdb
      (SolFits.ofModel hvar m) fun r m' h => ?_
    have hi' : DInv y { s with k := { s.k with ostate := .sat m' } } :=
      hi.frame rfl rfl (fun _ h => h) (Nat.le_refl _) rfl rfl
    have hread : wp env (rereadSol o r) (fun sol s' => sol = Assignment.ofModel m' n ∧
        s' = { s with k := { s.k with ostate := .sat m' } }) (fun _ => DInv y) { s with k := { s.k with ostate := .sat m' } } := by
      unfold rereadSol
      have hlen := h.fits.len
      split
      · rw [if_neg (by rw [List.isEmpty_iff]; intro h0; rw [h0] at hlen; simp at hlen; omega), wp_bind, wp_getS]
        dsimp only
        rw [wp_bind]
        refine wp_dbg ?_ ?_
        · rw [hlen, hcostOf, h.cost]; simp [icost]
        · rw [wp_pure, hlen]; exact ⟨rfl, rfl⟩
      · next h0 =>
        obtain ⟨rfl, h2⟩ := h.same (by omega)
        rw [wp_pure]
        exact ⟨h2, rfl⟩
    rw [wp_bind]
    refine wp_mono hread ?_ (fun _ _ h => h)
    rintro _ _ ⟨rfl, rfl⟩
    have hless : ∀ o' ∈ y.objs, icost o' m' ≤ icost o' m := fun o' ho' =>
      linear_mono fun p hp => h.less o' (by rw [hi.objs]; exact ho') p hp
    rw [wp_bind]
    refine wp_mono (hi'.event (e := .heurImprovement oi (r.1 + r.2.1) r.1)
      trivial) (fun _ s2 h2 => ?_) fun _ _ h => h
    rw [wp_pure]
    exact ⟨m', ⟨h2.1, by rw [h2.2], by rw [h2.2]; exact h.db⟩, h.cost, rfl, hless⟩
  · next hfeat =>
    rw [wp_bind]
    unfold getCost
    rw [wp_bind, wp_getS, wp_bind, hi.objs, ho, wp_unwrap_some, wp_pure, wp_pure, hcostOf]
    exact ⟨m, ⟨hi, hm, hdb⟩, rfl, rfl, fun _ _ => Nat.le_refl _⟩

theorem dc_tightCosts (ok : CandOK env y.toCandCtx) {n : Nat} (hn : y.n ≤ n) (t : Bool) (j : Nat) :
    ∀ {s : Slv P C} {i : Nat} {m : Asg}, i + j = y.objs.length → DModel y m s →
    wp env (tightCosts t j i (Assignment.ofModel m n)) (fun r s' => DInv y s' ∧
      VLe r.1 ((y.objs.drop i).map (icost · m)) ∧ ∃ m', DModel y m' s' ∧ r.2 = Assignment.ofModel m' n)
      (fun _ => DInv y) s := by
  induction j with
  | zero =>
    intro s i m hij h
    unfold tightCosts
    rw [wp_pure]
    have : y.objs.drop i = [] := List.drop_eq_nil_of_le (by omega)
    rw [this]
    exact ⟨h.1, .nil, m, h, rfl⟩
  | succ j ih =>
    intro s i m hij h
    unfold tightCosts
    have hlt : i < y.objs.length := by omega
    have ho : y.objs[i]? = some y.objs[i] := List.getElem?_eq_getElem hlt
    rw [wp_bind]
    refine wp_mono (dc_getCostTight ok ho hn h t) ?_ fun _ _ h => h
    rintro ⟨c, sol⟩ s1 ⟨m1, h1, rfl, rfl, hle1⟩
    dsimp only
    rw [wp_bind]
    refine wp_mono (ih (i := i + 1) (by omega) h1) ?_ fun _ _ h => h
    rintro ⟨cs, sol⟩ s2 ⟨h2, hc2, m2, hm2, rfl⟩
    rw [wp_pure, List.drop_eq_getElem_cons hlt]
    simp only [List.map_cons]
    refine ⟨h2, .cons (hle1 _ (List.getElem_mem hlt)) (hc2.trans ?_), m2, hm2, rfl⟩
    rw [VLe, List.forall₂_map_left_iff, List.forall₂_map_right_iff, List.forall₂_same]
    exact fun o ho => hle1 o (List.mem_of_mem_drop ho)

/-- The oracle's solution costs at most as much as a model of the clauses and the assumptions. -/
theorem dc_getSolutionAndCosts (ok : CandOK env y.toCandCtx) (a : List Lit) (t : Bool) :
    Tr (P := P) (C := C) env (DBack y a) (getSolutionAndCosts t) (fun r s' => DInv y s' ∧ ∃ m, y.good m ∧ cubeEval m a = true ∧
      VLe r.1 (y.objs.map (icost · m))) (fun _ => DInv y) := fun s h => by
  unfold getSolutionAndCosts
  rw [wp_bind]
  cases hm : s.k.ostate with
  | sat m =>
    refine wp_oracleSolution hm (Nat.lt_of_lt_of_le ok.pos h.1.next) ?_
    obtain ⟨hdb, ha⟩ := h.2 m hm
    rw [wp_bind, wp_getS, wp_bind, h.1.objs]
    refine wp_mono (dc_tightCosts ok h.1.next t y.objs.length (i := 0) (by omega) ⟨h.1, hm, hdb⟩) ?_ fun _ _ h => h
    rintro ⟨c, sol⟩ s1 ⟨h1, hc1, -⟩
    rw [wp_bind]
    refine wp_mono (dk_dbg _ s1 h1) (fun _ s2 h2 => ?_) fun _ _ h => h
    rw [wp_pure]
    exact ⟨h2, m, h.1.db m hdb, ha, hc1⟩
  | _ =>
    unfold oracleSolution
    rw [wp_bind, wp_getS, wp_bind]
    refine wp_mono (dk_unwrap _ s h.1) (fun _ s' h' => ?_) fun _ _ h => h
    rw [hm]
    exact h'

/-! ## The rest of the kernel -/

theorem dk_getCost (i : Nat) (sol : Assignment) : DistKeep (P := P) (C := C) env y (getCost i sol) := by
  unfold getCost; dk_auto

theorem dk_externalize (c : List Nat) : DistKeep (P := P) (C := C) env y (externalize c) := by
  unfold externalize; dk_auto

theorem dk_blockSolution (sol : Assignment) : DistKeep (P := P) (C := C) env y (blockSolution sol) := by
  unfold blockSolution
  refine dk_getS fun s => ?_
  split <;> dk_auto

theorem dk_unphaseSolution : DistKeep (P := P) (C := C) env y unphaseSolution := by
  unfold unphaseSolution; dk_auto

theorem dk_logSolution : DistKeep (P := P) (C := C) env y logSolution := by unfold logSolution; dk_auto
theorem dk_logNonDominated (p : NonDomPoint Assignment) : DistKeep (P := P) (C := C) env y (logNonDominated p) := by
  unfold logNonDominated; dk_auto

theorem dk_collect (p : NonDomPoint Assignment) : DistKeep (P := P) (C := C) env y (collect p) :=
  dk_modify (fun _ => rfl) (fun _ => rfl) fun _ => rfl

theorem dk_yieldBody (costs : List Nat) (assumps : List Lit) (st : NonDomPoint Assignment × Assignment) :
    DistKeep (P := P) (C := C) env y (yieldBody costs assumps st) := by
  unfold yieldBody
  refine dk_getS fun s => dk_bind (dk_dbg _) fun _ => dk_bind (dk_attempt dk_logSolution) fun r => ?_
  have hn := fun p => dk_logNonDominated (P := P) (C := C) (env := env) (y := y) p
  cases r with
  | error e =>
    exact dk_bind (dk_attempt (hn _)) fun _ => dk_bind (dk_collect _) fun _ => dk_bind (dk_ofExcept _) fun _ => dk_stop _
  | ok u =>
    refine dk_ite (fun _ => ?_) fun _ => ?_
    · exact dk_bind (dk_attempt (hn _)) fun _ => dk_bind (dk_collect _) fun _ => dk_bind dk_end fun _ =>
        dk_bind (dk_ofExcept _) fun _ => dk_pure _
    · refine dk_bind dk_check fun _ => dk_bind (dk_blockSolution _) fun _ => dk_bind (dk_solveAssumps _) fun res => ?_
      refine dk_ite (fun _ => ?_) fun _ => ?_
      · exact dk_bind (dk_attempt (hn _)) fun _ => dk_bind (dk_collect _) fun _ => dk_bind dk_end fun _ =>
          dk_bind (dk_ofExcept _) fun _ => dk_pure _
      · exact dk_bind dk_check fun _ => dk_bind dk_oracleSolution fun _ => dk_pure _

theorem dk_yieldSolutions (fuel : Nat) (costs : List Nat) (assumps : List Lit) (sol : Assignment) :
    DistKeep (P := P) (C := C) env y (yieldSolutions fuel costs assumps sol) := by
  unfold yieldSolutions
  exact dk_getS fun _ => dk_bind (dk_dbg _) fun _ => dk_bind (dk_start _) fun _ => dk_bind dk_unphaseSolution fun _ =>
    dk_bind (dk_externalize _) fun _ => dk_loop (fun st => dk_yieldBody _ _ st) _ _

theorem dk_encAt (i : Nat) : DistKeep (P := P) (C := C) env y (encAt i) := by unfold encAt; dk_auto

/-- The encoding is extended, and can then be used for the bounds in the range. -/
theorem dx_extendEncoding (i lo hi : Nat) {e : ObjEnc P C} (he : s.encs[i]? = some e) (h : DInv y s) :
    wp env (extendEncoding i lo hi) (fun _ s' => DInv y s' ∧ ∃ e', s'.encs[i]? = some e' ∧ e'.offset = e.offset ∧
      e'.isConstant = e.isConstant ∧ ∀ b, e.offset ≤ b → lo ≤ b → b < hi → e'.Ready b) (fun _ => DInv y) s := by
  unfold extendEncoding
  rw [wp_bind, wp_getS, wp_bind]
  refine wp_encAt he ?_
  · rw [wp_modifyS]
    obtain ⟨r1, r2, -, r4, r5, -, r7, -, -, r10⟩ := ObjEnc.encodeUbChange_spec e lo hi s.k.vm.nextVar (h.below i e he)
    have hilen : i < s.encs.length := (List.getElem?_eq_some_iff.1 he).1
    have hget : ∀ (e' : ObjEnc P C) j, (s.encs.set i e')[j]? = if i = j then some e' else s.encs[j]? := by
      intro e' j
      rw [List.getElem?_set]
      split
      · next h => subst h; simp
      · rfl
    refine ⟨⟨fun m hm => h.db m ((cnfEval_append _ _ _).1 hm).1, h.objs, Nat.le_trans h.next r1, fun j e' he' => ?_, h.opts,
      fun m hm j e' o he' ho => ?_, h.log⟩, _, ?_, r4, r5, r10⟩
    · dsimp only at he' ⊢
      rw [hget] at he'
      split at he'
      · cases he'; exact r2
      · exact ObjEnc.below_mono (h.below j e' he') r1
    · obtain ⟨hm1, hm2⟩ := (cnfEval_append _ _ _).1 hm
      dsimp only at he'
      rw [hget] at he'
      split at he'
      · next hij =>
        subst hij
        cases he'
        exact r7 o m (h.enc m hm1 i e o he ho) hm2
      · exact h.enc m hm1 j e' o he' ho
    · dsimp only
      rw [hget, if_pos rfl]

theorem dk_extendEncoding (i lo hi : Nat) : DistKeep (P := P) (C := C) env y (extendEncoding i lo hi) := fun s h => by
  cases he : s.encs[i]? with
  | none =>
    unfold extendEncoding encAt
    rw [wp_bind, wp_getS, wp_bind, wp_bind, wp_getS, he]
    exact h
  | some e => exact wp_mono (dx_extendEncoding i lo hi he h) (fun _ _ h => h.1) fun _ _ h => h

theorem dk_enforceDomEncode (cs : List Nat) : ∀ i, DistKeep (P := P) (C := C) env y (enforceDomEncode i cs) := by
  induction cs with
  | nil => exact fun i => dk_pure _
  | cons c cs ih => exact fun i => dk_bind (dk_extendEncoding _ _ _) fun _ => ih _

theorem dk_enforceDomLits (cs : List Nat) : ∀ i, DistKeep (P := P) (C := C) env y (enforceDomLits i cs) := by
  induction cs with
  | nil => exact fun i => dk_pure _
  | cons c cs ih =>
    exact fun i => dk_bind (dk_encAt _) fun _ => dk_bind (dk_unwrap _) fun _ => dk_bind (ih _) fun _ => dk_pure _

theorem dk_enforceDominating (costs : List Nat) : DistKeep (P := P) (C := C) env y (enforceDominating costs) := by
  unfold enforceDominating
  exact dk_getS fun _ => dk_bind (dk_dbg _) fun _ => dk_bind (dk_enforceDomEncode _ _) fun _ => dk_enforceDomLits _ _

theorem dk_commitBlock (bs : Option Lit) : DistKeep (P := P) (C := C) env y (commitBlock bs) := by
  cases bs
  · exact dk_pure _
  · exact dk_addClause _

/-! ## LowerBounding -/

theorem dk_updateFenceLoop (core : List Lit) : ∀ found, DistKeep (P := P) (C := C) env y (updateFenceLoop core found) := by
  induction core with
  | nil => exact fun _ => dk_pure _
  | cons l core ih =>
    intro found
    unfold updateFenceLoop
    refine dk_getS fun s => ?_
    split
    · exact ih _
    · exact dk_bind (dk_unwrap _) fun _ => dk_bind (dk_encAt _) fun _ => dk_bind (dk_unwrap _) fun _ =>
        dk_bind (dk_extendEncoding _ _ _) fun _ => dk_bind (dk_encAt _) fun _ => dk_bind (dk_unwrap _) fun _ =>
        dk_bind (dk_modify (fun _ => rfl) (fun _ => rfl) fun _ => rfl) fun _ => ih _

theorem dk_updateFence (core : List Lit) : DistKeep (P := P) (C := C) env y (updateFence core) := by
  unfold updateFence
  exact dk_getS fun _ => dk_bind (dk_updateFenceLoop _ _) fun _ => dk_getS fun _ => dk_logEvent trivial

theorem dk_initFenceLoop (n : Nat) : ∀ i, DistKeep (P := P) (C := C) env y (initFenceLoop i n) := by
  induction n with
  | zero => exact fun _ => dk_pure _
  | succ n ih =>
    intro i
    unfold initFenceLoop
    exact dk_bind (dk_encAt _) fun _ => dk_bind (dk_extendEncoding _ _ _) fun _ => dk_bind (dk_encAt _) fun _ =>
      dk_bind (dk_unwrap _) fun _ => dk_bind (dk_modify (fun _ => rfl) (fun _ => rfl) fun _ => rfl) fun _ => ih _

theorem dk_initFence : DistKeep (P := P) (C := C) env y initFence := by
  unfold initFence
  exact dk_getS fun _ => dk_ite (fun _ => dk_initFenceLoop _ _) fun _ => dk_pure _


/-! ## Blocking -/

/-- Objective `i + j` is better than `cs[j]` for some `j`. -/
def BetterO (os : List Objective) (i : Nat) (cs : List Nat) (m : Asg) : Prop :=
  ∃ (j c : Nat) (o : Objective), cs[j]? = some c ∧ os[i + j]? = some o ∧ icost o m < c

theorem BetterO.head {os : List Objective} {i c : Nat} {cs : List Nat} {m : Asg} {o : Objective} (ho : os[i]? = some o)
    (h : icost o m < c) : BetterO os i (c :: cs) m := ⟨0, c, o, rfl, ho, h⟩

theorem BetterO.tail {os : List Objective} {i c : Nat} {cs : List Nat} {m : Asg} (h : BetterO os (i + 1) cs m) :
    BetterO os i (c :: cs) m := by
  obtain ⟨j, d, o, h1, h2, h3⟩ := h
  exact ⟨j + 1, d, o, h1, by rw [show i + (j + 1) = i + 1 + j by omega]; exact h2, h3⟩

theorem BetterO.not_vle {os : List Objective} {cs : List Nat} {m : Asg} (h : BetterO os 0 cs m) :
    ¬ VLe cs (os.map (icost · m)) := by
  obtain ⟨j, c, o, h1, h2, h3⟩ := h
  intro hv
  have := (vle_iff_getElem hv.length_eq).1 hv j c (icost o m) h1 (by
    rw [Nat.zero_add] at h2
    rw [List.getElem?_map, h2]; rfl)
  omega

/-- If the clause is true in a model of the clauses in the oracle, some objective is better. -/
theorem ds_domBlockLoop (cs : List Nat) : ∀ (y : DCtx) (i : Nat) (cl : Clause), (∀ j, j < cs.length → i + j < y.objs.length) →
    Tr (P := P) (C := C) env (DInv y) (domBlockLoop i cs cl) (fun cl' s' => DInv y s' ∧
      ∀ m, cnfEval m s'.k.db = true → clauseEval m cl' = true → clauseEval m cl = true ∨ BetterO y.objs i cs m)
    (fun _ => DInv y) := by
  induction cs with
  | nil => exact fun y i cl _ s h => ⟨h, fun m _ hc => .inl hc⟩
  | cons c cs ih =>
    intro y i cl hlen
    have hlen' : ∀ j, j < cs.length → i + 1 + j < y.objs.length := fun j hj => by
      have := hlen (j + 1) (by simpa using hj)
      omega
    have hi0 : i < y.objs.length := hlen 0 (by simp)
    have ho : y.objs[i]? = some y.objs[i] := List.getElem?_eq_getElem hi0
    have hskip : Tr (P := P) (C := C) env (DInv y) (domBlockLoop (i + 1) cs cl) (fun cl' s' => DInv y s' ∧
        ∀ m, cnfEval m s'.k.db = true → clauseEval m cl' = true → clauseEval m cl = true ∨ BetterO y.objs i (c :: cs) m)
        (fun _ => DInv y) :=
      Tr.weaken (ih y (i + 1) cl hlen') (fun _ h => h) fun _ _ h => ⟨h.1, fun m h1 h2 => (h.2 m h1 h2).imp id BetterO.tail⟩
    -- continuing with one literal more
    have hcont : ∀ (l : Lit) (s : Slv P C), DInv y s →
        (∀ m, cnfEval m s.k.db = true → l.eval m = true → icost y.objs[i] m < c) →
        wp env (domBlockLoop (i + 1) cs (cl ++ [l])) (fun cl' s' => DInv y s' ∧
          ∀ m, cnfEval m s'.k.db = true → clauseEval m cl' = true → clauseEval m cl = true ∨ BetterO y.objs i (c :: cs) m)
          (fun _ => DInv y) s := by
      intro l s h hl
      have h1 : DInv (y.upd (fun m => y.good m ∧ (l.eval m = true → icost y.objs[i] m < c)) y.old) s :=
        h.upd fun m hm => ⟨h.db m hm, hl m hm⟩
      refine wp_mono (ih (y.upd (fun m => y.good m ∧ (l.eval m = true → icost y.objs[i] m < c)) y.old) (i + 1) (cl ++ [l]) hlen' s h1) ?_ fun _ s' h' => ?_
      · rintro cl' s' ⟨h2, h3⟩
        refine ⟨⟨fun m hm => (h2.db m hm).1, h2.objs, h2.next, h2.below, h2.opts, h2.enc, h2.log⟩, fun m hm hc => ?_⟩
        rcases h3 m hm hc with h4 | h4
        · rw [clauseEval_append, clauseEval_singleton] at h4
          exact h4.imp id fun h5 => BetterO.head ho ((h2.db m hm).2 h5)
        · exact .inr h4.tail
      · exact ⟨fun m hm => (h'.db m hm).1, h'.objs, h'.next, h'.below, h'.opts, h'.enc, h'.log⟩
    intro s h
    unfold domBlockLoop
    cases he : s.encs[i]? with
    | none =>
      unfold encAt
      rw [wp_bind, wp_bind, wp_getS, he]
      exact h
    | some e =>
      rw [wp_bind]
      refine wp_encAt he ?_
      by_cases h1 : c ≤ e.offset
      · rw [if_pos h1]
        exact hskip s h
      rw [if_neg h1]
      by_cases h2 : e.isConstant = true
      · rw [if_pos h2]
        exact hskip s h
      rw [if_neg h2, wp_bind]
      refine wp_mono (dx_extendEncoding i (c - 1) c he h) ?_ fun _ _ h => h
      rintro _ s1 ⟨h, e1, he1, hoff, hcon, hr⟩
      rw [wp_bind]
      refine wp_encAt he1 ?_
      obtain ⟨ls, hls, -, hsnd, -, -, -⟩ := ObjEnc.enforceUb_spec e1 (c - 1) s1.k.vm.nextVar
        (hr (c - 1) (by omega) (by omega) (by omega)) (h.below i e1 he1)
      rw [wp_bind, hls, wp_orErr_some]
      have hsnd' : ∀ m, cnfEval m s1.k.db = true → cubeEval m ls = true → icost y.objs[i] m < c := by
        intro m hm hc
        have := hsnd _ m (by rw [hcon]; simpa using h2) (h.enc m hm i e1 _ he1 ho) hc
        omega
      split
      · exact hcont _ s1 h fun m hm hl => hsnd' m hm (by rw [cubeEval_singleton]; exact hl)
      · rw [wp_bind]
        refine wp_mono (Q := fun _ s2 => s2 = s1) ?_ ?_ fun _ _ h => h
        · rw [wp_dbg_iff]; split
          · exact h
          · rfl
        intro _ _ h0
        rw [h0, wp_bind]
        refine wp_freshVar fun s2 hk2 hen2 _ _ hio2 => ?_
        rw [wp_bind]
        refine wp_addClauses _ fun s3 hk3 hen3 _ _ hio3 => ?_
        have hdb : s3.k.db = s1.k.db ++ litImplCube (Lit.pos s1.k.vm.nextVar) ls := by rw [hk3, hk2]
        refine hcont _ s3 (h.frame (by rw [hio3, hio2]) (by rw [hk3, hk2]) (by rw [hdb]; exact fun _ h => List.mem_append_left _ h)
          (by rw [hk3, hk2]; exact Nat.le_succ _) (by rw [hen3, hen2]) (by rw [hk3, hk2])) fun m hm hl => ?_
        rw [hdb, cnfEval_append] at hm
        exact hsnd' m hm.1 ((cnfEval_litImplCube _ _ _).1 hm.2 hl)

theorem ds_dominatedBlockClause (y : DCtx) {c : List Nat} (hc : c.length = y.objs.length) :
    Tr (P := P) (C := C) env (DInv y) (dominatedBlockClause c) (fun cl s' => DInv y s' ∧
      ∀ m, cnfEval m s'.k.db = true → clauseEval m cl = true → ¬ VLe c (y.objs.map (icost · m))) (fun _ => DInv y) := by
  unfold dominatedBlockClause
  refine Tr.getS fun _ => (dk_dbg _).bind fun _ => ?_
  refine Tr.weaken (ds_domBlockLoop c y 0 [] fun j hj => by omega) (fun _ h => h) fun cl s' h => ⟨h.1, fun m hm hcl => ?_⟩
  rcases h.2 m hm hcl with h1 | h1
  · simp [clauseEval] at h1
  · exact h1.not_vle

/-- The costs of the assignment are not above any of the cost vectors. -/
def NotAbove (os : List Objective) (L : List (List Nat)) (m : Asg) : Prop := ∀ d ∈ L, ¬ VLe d (os.map (icost · m))

theorem NotAbove.snoc {os : List Objective} {L : List (List Nat)} {c : List Nat} {m : Asg} (h : NotAbove os L m)
    (hc : ¬ VLe c (os.map (icost · m))) : NotAbove os (L ++ [c]) m := by
  intro d hd
  rcases List.mem_append.1 hd with h1 | h1
  · exact h d h1
  · rw [List.mem_singleton.1 h1]; exact hc

/-- The restriction on the models while the minimization blocks the cones above `L` with the given switch. -/
def Under (y : DCtx) (L : List (List Nat)) (bs : Option Lit) (m : Asg) : Prop :=
  cubeEval m bs.toList = true → NotAbove y.objs L m

/-- A clause is added that tells more about the models. -/
theorem ds_addClause {y : DCtx} {G : Asg → Prop} {K : List (List Nat)} {cl : Clause} {E : Stop → Slv P C → Prop}
    (h : DInv y s) (hK : K = y.old) (hG : ∀ m, cnfEval m s.k.db = true → clauseEval m cl = true → G m) :
    wp env (addClause cl) (fun _ s' => DInv (y.upd G K) s') E s := by
  subst hK
  have h1 := dk_addClause (env := env) cl s h
  unfold addClause at h1 ⊢
  rw [wp_modifyS] at h1 ⊢
  refine h1.upd fun m hm => ?_
  dsimp only at hm
  rw [cnfEval_append] at hm
  refine hG m hm.1 ?_
  simpa [cnfEval] using hm.2

theorem DInv.drop {G : Asg → Prop} {K : List (List Nat)} (h : DInv (y.upd G K) s) : DInv (y.upd (fun _ => True) K) s :=
  h.upd fun _ _ => trivial

/-- The switch is turned on for good. -/
theorem ds_commitBlock {y : DCtx} {G : Asg → Prop} {K : List (List Nat)} (bs : Option Lit) :
    Tr (P := P) (C := C) env (DInv (y.upd (fun m => cubeEval m bs.toList = true → G m) K)) (commitBlock bs)
      (fun _ => DInv (y.upd G K)) (fun _ => DInv (y.upd (fun _ => True) K)) := fun s h => by
  cases bs with
  | none => exact h.upd fun m hm => h.db m hm rfl
  | some l =>
    refine ds_addClause (y := y.upd (fun m => cubeEval m (some l).toList = true → G m) K) (G := G) (K := K) h rfl fun m hm hl => h.db m hm ?_
    rw [clauseEval_singleton] at hl
    simpa [cubeEval_singleton] using hl

/-- The cone above the costs is blocked if the switch is on. -/
theorem ds_tmpBlockDominated (y : DCtx) (L K : List (List Nat)) {c : List Nat} (hc : c.length = y.objs.length) :
    Tr (P := P) (C := C) env (DInv (y.upd (NotAbove y.objs L) K)) (tmpBlockDominated c)
      (fun b => DInv (y.upd (Under y (L ++ [c]) (some b)) K)) (fun _ => DInv (y.upd (fun _ => True) K)) := fun s h => by
  unfold tmpBlockDominated
  rw [wp_bind, wp_getS, wp_bind]
  refine wp_mono (dk_dbg _ s h) (fun _ s0 h => ?_) fun _ _ h => h.drop
  rw [wp_bind]
  refine wp_mono (ds_dominatedBlockClause (y.upd (NotAbove y.objs L) K) hc s0 h) ?_ fun _ _ h => h.drop
  rintro cl s1 ⟨h1, h2⟩
  rw [wp_bind]
  refine wp_freshVar fun s2 hk2 hen2 _ _ hio2 => ?_
  have h3 : DInv (y.upd (NotAbove y.objs L) K) s2 := h1.frame (by rw [hio2]) (by rw [hk2]) (by rw [hk2]; exact fun _ h => h)
    (by rw [hk2]; exact Nat.le_succ _) hen2 (by rw [hk2])
  rw [wp_bind]
  refine wp_mono (ds_addClause (G := Under y (L ++ [c]) (some (Lit.pos s1.k.vm.nextVar).not)) h3 rfl
    fun m hm hcl hg => (h3.db m hm).snoc ?_) (fun _ s4 h4 => h4) fun _ _ h => h
  have hdb : s2.k.db = s1.k.db := by rw [hk2]
  rw [hdb] at hm
  rw [clauseEval_append, clauseEval_singleton] at hcl
  refine h2 m hm (hcl.resolve_right fun h5 => ?_)
  simp [cubeEval, Lit.eval, Lit.not, Lit.pos] at hg h5
  rw [hg] at h5
  cases h5

/-- The cone above the current costs is blocked as well. -/
theorem ds_pminBlock (y : DCtx) (L K : List (List Nat)) {c : List Nat} (hc : c.length = y.objs.length) (bs : Option Lit)
    (hno : y.opts.enumeration = .noEnum → bs = none) :
    Tr (P := P) (C := C) env (DInv (y.upd (Under y L bs) K)) (pminBlock [] c bs)
      (fun r s' => DInv (y.upd (Under y (L ++ [c]) r.1) K) s' ∧ r.2 = r.1.toList ∧
        (y.opts.enumeration = .noEnum → r.1 = none)) (fun _ => DInv (y.upd (fun _ => True) K)) := fun s h => by
  unfold pminBlock
  rw [wp_bind, wp_getS]
  by_cases hen : s.k.opts.enumeration = .noEnum
  · rw [if_pos hen]
    have hbs := hno (by rw [← hen, h.opts]; rfl)
    subst hbs
    rw [wp_bind]
    refine wp_mono (ds_dominatedBlockClause (y.upd (Under y L none) K) hc s h) ?_ fun _ _ h => h.drop
    rintro cl s1 ⟨h1, h2⟩
    rw [wp_bind]
    refine wp_mono (ds_addClause (G := Under y (L ++ [c]) none) h1 rfl fun m hm hcl hg => (h1.db m hm hg).snoc (h2 m hm hcl))
      (fun _ s3 h3 => ?_) fun _ _ h => h
    rw [wp_pure]
    exact ⟨h3, rfl, fun _ => rfl⟩
  · rw [if_neg hen, wp_bind]
    refine wp_mono (ds_commitBlock bs s h) (fun _ s1 h1 => ?_) fun _ _ h => h
    rw [wp_bind]
    refine wp_mono (ds_tmpBlockDominated y L K hc s1 h1) (fun b s2 h2 => ?_) fun _ _ h => h
    rw [wp_pure]
    exact ⟨h2, rfl, fun h3 => absurd (by rw [h.opts]; exact h3) hen⟩

/-! ## The runs -/

/-- No cost vector is weakly dominated by an earlier one, and each is at most as large as that of some assignment. -/
structure DFresh (os : List Objective) (L : List (List Nat)) : Prop where
  apart : L.Pairwise fun d c => ¬ VLe d c
  box : ∀ c ∈ L, ∃ m, VLe c (os.map (icost · m))

/-- How a call may end. -/
def DEnd (y : DCtx) (s : Slv P C) : Prop := ∃ L, DFresh y.objs L ∧ DInv (y.upd (fun _ => True) L) s

theorem DFresh.snoc {os : List Objective} {L : List (List Nat)} {c : List Nat} {m : Asg} (h : DFresh os L) (hm : NotAbove os L m)
    (hc : VLe c (os.map (icost · m))) : DFresh os (L ++ [c]) := by
  refine ⟨?_, fun d hd => ?_⟩
  · rw [List.pairwise_append]
    refine ⟨h.apart, List.pairwise_singleton _ _, fun d hd e he => ?_⟩
    rw [List.mem_singleton.1 he]
    exact fun hv => hm d hd (hv.trans hc)
  · rcases List.mem_append.1 hd with h1 | h1
    · exact h.box d h1
    · rw [List.mem_singleton.1 h1]; exact ⟨m, hc⟩

theorem DInv.ends {y : DCtx} {G : Asg → Prop} {L : List (List Nat)} (h : DInv (y.upd G L) s) (hf : DFresh y.objs L) : DEnd y s :=
  ⟨L, hf, h.drop⟩

/-- A computation without candidates. -/
theorem DistKeep.tr {y : DCtx} {G : Asg → Prop} {L : List (List Nat)} {c : M P C α} (hc : DistKeep env (y.upd G L) c)
    (hf : DFresh y.objs L) : Tr env (DInv (y.upd G L)) c (fun _ => DInv (y.upd G L)) (fun _ => DEnd y) :=
  fun s h => wp_mono (hc s h) (fun _ _ h => h) fun _ _ h => h.ends hf

/-- A candidate is logged. -/
theorem ds_logCandidate {y : DCtx} {G : Asg → Prop} {L : List (List Nat)} {c : List Nat} (ph : Phase) (hf : DFresh y.objs L)
    (hf' : DFresh y.objs (L ++ [c])) : Tr (P := P) (C := C) env (DInv (y.upd G L)) (logCandidate c ph)
      (fun _ => DInv (y.upd G (L ++ [c]))) (fun _ => DEnd y) := by
  unfold logCandidate
  refine Tr.getS fun _ => ((dk_dbg _).tr hf).bind fun _ => ((dk_bump _).tr hf).bind fun _ => ?_
  refine Tr.bind (Q := fun _ => DInv (y.upd G (L ++ [c]))) (fun s h => ?_) fun _ => (dk_stepLimit _ _ _).tr hf'
  unfold wp logEvent
  have hlog : ∀ l, (candidates (l ++ [.candidate c ph])).map Prod.fst = (candidates l).map Prod.fst ++ [c] := by
    intro l
    unfold candidates
    rw [List.filterMap_append]
    simp
  cases hl : s.io.logger with
  | none =>
    exact ⟨h.db, h.objs, h.next, h.below, h.opts, h.enc, fun l hl' => by rw [hl] at hl'; cases hl'⟩
  | some l =>
    cases env.logOk s.io.tick with
    | false =>
      refine DInv.ends (G := G) (L := L) ?_ hf
      exact h.frame rfl rfl (fun _ h => h) (Nat.le_refl _) rfl rfl
    | true =>
      refine ⟨h.db, h.objs, h.next, h.below, h.opts, h.enc, fun l' hl' => ?_⟩
      simp only [Option.some.injEq] at hl'
      subst hl'
      rw [hlog, h.log l hl]
      exact List.append_assoc _ _ _

/-- A candidate is determined and logged. -/
theorem ds_candidate {y : DCtx} {G : Asg → Prop} {L : List (List Nat)} {a : List Lit} {Q : α → Slv P C → Prop}
    (ok : CandOK env y.toCandCtx) (ph : Phase) (hf : DFresh y.objs L)
    (hG : ∀ m, G m → cubeEval m a = true → NotAbove y.objs L m) {f : List Nat × Assignment → M P C α}
    (hk : ∀ r, r.1.length = y.objs.length → DFresh y.objs (L ++ [r.1]) →
      Tr env (DInv (y.upd G (L ++ [r.1]))) (f r) Q (fun _ => DEnd y)) :
    Tr env (DBack (y.upd G L) a) (do
      checkTermination
      let s ← getS
      let r ← getSolutionAndCosts (s.k.opts.solutionTightening.wanted ph)
      logCandidate r.1 ph
      checkTermination
      f r) Q (fun _ => DEnd y) := by
  refine Tr.bind (Q := fun _ => DBack (y.upd G L) a) (fun s h => wp_mono (db_check s h) (fun _ _ h => h) fun _ _ h => h.ends hf)
    fun _ => Tr.getS fun s0 => ?_
  intro s h
  rw [wp_bind]
  refine wp_mono (dc_getSolutionAndCosts (y := y.upd G L) ⟨ok.orc, ok.pos, ok.vars, ok.tok, ok.sep⟩ a _ s h) ?_
    fun _ _ h => h.ends hf
  rintro r s1 ⟨h1, m, hg, ha, hle⟩
  have hf' := hf.snoc (hG m hg ha) hle
  refine ((ds_logCandidate ph hf hf').bind fun _ => (dk_check.tr hf').bind fun _ => hk r ?_ hf') s1 h1
  rw [hle.length_eq, List.length_map]
  rfl

/-- The invariant of the minimization: the cones above all candidates but the current one are blocked. -/
def DMin (y : DCtx) (st : PMinState) (s : Slv P C) : Prop := ∃ L, DFresh y.objs (L ++ [st.1]) ∧ st.1.length = y.objs.length ∧
  (y.opts.enumeration = .noEnum → st.2.2 = none) ∧ DInv (y.upd (Under y L st.2.2) (L ++ [st.1])) s

/-- State after the minimization. -/
def DMinDone (y : DCtx) (st : PMinState) (s : Slv P C) : Prop :=
  ∃ L, DFresh y.objs L ∧ DInv (y.upd (Under y L st.2.2) L) s

/-- State between the iterations of the outer loop. -/
def DHead (y : DCtx) (s : Slv P C) : Prop := ∃ L, DFresh y.objs L ∧ DInv (y.upd (NotAbove y.objs L) L) s

theorem DHead.ends {y : DCtx} (h : DHead y s) : DEnd y s := by
  obtain ⟨L, h1, h2⟩ := h
  exact h2.ends h1

theorem okUpd {y : DCtx} (ok : CandOK env y.toCandCtx) (G : Asg → Prop) (L : List (List Nat)) :
    CandOK env (y.upd G L).toCandCtx := ⟨ok.orc, ok.pos, ok.vars, ok.tok, ok.sep⟩

theorem ds_pminBody {y : DCtx} (ok : CandOK env y.toCandCtx) (st : PMinState) :
    Tr (P := P) (C := C) env (DMin y st) (pminBody [] st) (BodyPost (DMin y) (DMinDone y)) (fun _ => DEnd y) := fun s h => by
  obtain ⟨L, hf, hlen, hno, hi⟩ := h
  unfold pminBody
  rw [wp_bind]
  refine wp_mono (ds_pminBlock y L (L ++ [st.1]) hlen st.2.2 hno s hi) ?_ fun _ _ h => h.ends hf
  rintro ⟨bs, pre⟩ s1 ⟨h1, hpre, hno1⟩
  dsimp only at h1 hpre hno1
  subst hpre
  refine (((dk_enforceDominating _).tr hf).bind fun dom => Tr.bind (Q := fun _ => DBack _ (bs.toList ++ dom))
    (fun s h => wp_mono (db_solve (okUpd ok _ _) _ s h) (fun _ _ h => h) fun _ _ h => h.ends hf) fun res =>
      Tr.ite (fun _ => ?_) fun _ => ?_) s1 h1
  · refine Tr.weaken ((dk_end.tr hf).bind fun _ => Tr.pure fun s h => ?_) (fun _ h => h.1) fun _ _ h => h
    exact ⟨_, hf, h⟩
  · refine ds_candidate ok .minimization hf (fun m hm ha => hm ((cubeEval_append _ _ _).1 ha).1) fun r hr hf' =>
      Tr.pure fun s h => ⟨_, hf', hr, hno1, h⟩

theorem ds_pMinimization {y : DCtx} (ok : CandOK env y.toCandCtx) (fuel : Nat) {L : List (List Nat)} {c : List Nat}
    (sol : Assignment) (hf : DFresh y.objs (L ++ [c])) (hlen : c.length = y.objs.length) :
    Tr (P := P) (C := C) env (DInv (y.upd (NotAbove y.objs L) (L ++ [c]))) (pMinimization fuel c sol []) (DMinDone y)
      (fun _ => DEnd y) := by
  unfold pMinimization
  refine Tr.getS fun _ => ((dk_dbg _).tr hf).bind fun _ => ((dk_start _).tr hf).bind fun _ => ?_
  refine Tr.weaken (Tr.loop (I := DMin y) fuel (c, sol, none) (fun st => ds_pminBody ok st) fun st s h => ?_) (fun s h => ?_)
    fun _ _ h => h
  · obtain ⟨L, h1, -, -, h2⟩ := h
    exact h2.ends h1
  · exact ⟨L, hf, hlen, fun _ => rfl, h.upd fun m hm _ => h.db m hm⟩

theorem ds_harvestBody {y : DCtx} (ok : CandOK env y.toCandCtx) (fuel : Nat) (a : List Lit) (u : Unit) :
    Tr (P := P) (C := C) env (DHead y) (harvestBody fuel a [] u) (BodyPost (fun _ => DHead y) fun _ => DHead y)
      (fun _ => DEnd y) := fun s h => by
  obtain ⟨L, hf, hi⟩ := h
  unfold harvestBody
  refine (Tr.bind (Q := fun _ => DBack _ a)
    (fun s h => wp_mono (db_solve (okUpd ok _ _) _ s h) (fun _ _ h => h) fun _ _ h => h.ends hf) fun res =>
      Tr.ite (fun _ => ?_) fun _ => ?_) s hi
  · exact Tr.weaken ((dk_end.tr hf).bind fun _ => Tr.pure fun s h => ⟨_, hf, h⟩) (fun _ h => h.1) fun _ _ h => h
  · refine ds_candidate ok .outerLoop hf (fun m hm _ => hm) fun r hr hf' => ?_
    refine (ds_pMinimization ok fuel r.2 hf' hr).bind fun st s h => ?_
    obtain ⟨L', hf1, h1⟩ := h
    refine (((dk_enforceDominating _).tr hf1).bind fun dom => ((dk_yieldSolutions _ _ _ _).tr hf1).bind fun _ =>
      Tr.bind (Q := fun _ => DInv (y.upd (NotAbove y.objs L') L')) (fun s h => ?_) fun _ => Tr.pure fun s h => ⟨_, hf1, h⟩) s h1
    exact wp_mono (ds_commitBlock _ s h) (fun _ _ h => h) fun _ _ h => h.ends hf1

theorem DHead.keep {y : DCtx} {c : M P C α} (hc : ∀ G L, DistKeep env (y.upd G L) c) :
    Tr env (DHead y) c (fun _ => DHead y) (fun _ => DEnd y) := fun s h => by
  obtain ⟨L, hf, hi⟩ := h
  exact wp_mono ((hc _ L).tr hf s hi) (fun _ _ h => ⟨L, hf, h⟩) fun _ _ h => h

theorem ds_pminMain {y : DCtx} (ok : CandOK env y.toCandCtx) (fuel : Nat) :
    Tr (P := P) (C := C) env (DHead y) (pminMain fuel) (fun _ => DHead y) (fun _ => DEnd y) := by
  unfold pminMain
  exact Tr.getS fun _ => (DHead.keep fun _ _ => dk_dbg _).bind fun _ => (DHead.keep fun _ _ => dk_start _).bind fun _ =>
    Tr.loop (I := fun _ => DHead y) fuel () (fun u => ds_harvestBody ok fuel [] u) fun _ _ h => h.ends

theorem ds_harvest {y : DCtx} (ok : CandOK env y.toCandCtx) (fuel : Nat) :
    Tr (P := P) (C := C) env (DHead y) (harvest fuel []) (fun _ => DHead y) (fun _ => DEnd y) := by
  unfold harvest
  exact Tr.getS fun _ => (DHead.keep fun _ _ => dk_dbg _).bind fun _ => (DHead.keep fun _ _ => dk_start _).bind fun _ =>
    Tr.loop (I := fun _ => DHead y) fuel () (fun u => ds_harvestBody ok fuel _ u) fun _ _ h => h.ends

theorem ds_lbBody {y : DCtx} (ok : CandOK env y.toCandCtx) (fuel : Nat) (u : Unit) :
    Tr (P := P) (C := C) env (DHead y) (lbBody fuel u) (BodyPost (fun _ => DHead y) fun _ => DHead y) (fun _ => DEnd y) := by
  unfold lbBody
  refine Tr.getS fun s => (DHead.keep fun _ _ => dk_solveAssumps _).bind fun res => ?_
  split
  · exact (ds_harvest ok fuel).bind fun _ => Tr.pure fun _ h => h
  · refine (DHead.keep fun _ _ => dk_oracleCore).bind fun core => Tr.ite
      (fun _ => (DHead.keep fun _ _ => dk_end).bind fun _ => Tr.pure fun _ h => h) fun _ => ?_
    exact Tr.getS fun _ => (DHead.keep fun _ _ => dk_updateFence _).bind fun _ => Tr.getS fun _ =>
      (DHead.keep fun _ _ => dk_dbg _).bind fun _ => Tr.pure fun _ h => h
  · exact fun s h => h.ends

theorem ds_lbMain {y : DCtx} (ok : CandOK env y.toCandCtx) (fuel : Nat) :
    Tr (P := P) (C := C) env (DHead y) (lbMain fuel) (fun _ => DHead y) (fun _ => DEnd y) := by
  unfold lbMain
  exact Tr.getS fun _ => (DHead.keep fun _ _ => dk_dbg _).bind fun _ => (DHead.keep fun _ _ => dk_start _).bind fun _ =>
    (DHead.keep fun _ _ => dk_initFence).bind fun _ =>
    Tr.loop (I := fun _ => DHead y) fuel () (fun u => ds_lbBody ok fuel u) fun _ _ h => h.ends

/-- One call of `solve`: none of its candidates is weakly dominated by an earlier one of the same call. -/
theorem ds_solve {y : DCtx} (ok : CandOK env y.toCandCtx) {alg : Alg} (ha : alg ≠ .biOptSat) (fuel : Nat) (limits : Limits)
    (h : DInv (y.upd (fun _ => True) []) s) : DEnd y (alg.solve fuel limits env s).2 := by
  have h0 : DHead y s := ⟨[], ⟨.nil, by simp⟩, h.upd fun m _ d hd => by cases hd⟩
  have hs : Tr (P := P) (C := C) env (DHead y) (startSolving limits) (fun _ => DHead y) (fun _ => DEnd y) :=
    DHead.keep fun _ _ => dk_modify (fun _ => rfl) (fun _ => rfl) fun _ => rfl
  have h1 : wp env (alg.solve fuel limits) (fun _ => DHead y) (fun _ => DEnd y) s := by
    cases alg with
    | pMinimal => exact (hs.bind fun _ => ds_pminMain ok fuel) s h0
    | lowerBounding => exact (hs.bind fun _ => ds_lbMain ok fuel) s h0
    | biOptSat => exact absurd rfl ha
  unfold wp at h1
  cases hr : alg.solve fuel limits env s with
  | mk r s' =>
    rw [hr] at h1
    cases r with
    | ok _ => exact h1.ends
    | error _ => exact h1

end Scuttle
