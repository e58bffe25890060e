import Verif.Model.Alg
import Verif.Proof.WP

/-!
# A logic for logging, limits and interrupts

What a solver logs and when it stops does not depend on the correctness of the oracle and of the encodings. An `IoLogic`
is an invariant of the logging primitives; it is then an invariant of the three algorithms.
-/

set_option linter.unusedSectionVars false

namespace Scuttle

variable {P C α β : Type} {env : Env}

/-- A triple: run from a state with `A`, the computation returns with `Q` or stops with `J`. -/
def Tr (env : Env) (A : Slv P C → Prop) (c : M P C α) (Q : α → Slv P C → Prop) (J : Stop → Slv P C → Prop) : Prop :=
  ∀ s, A s → wp env c Q J s

variable {A : Slv P C → Prop} {J : Stop → Slv P C → Prop}

theorem Tr.bind {c : M P C α} {f : α → M P C β} {Q : α → Slv P C → Prop} {R : β → Slv P C → Prop}
    (h1 : Tr env A c Q J) (h2 : ∀ a, Tr env (Q a) (f a) R J) : Tr env A (c >>= f) R J := fun s hs => by
  rw [wp_bind]
  exact wp_mono (h1 s hs) (fun a s' h => h2 a s' h) (fun _ _ h => h)

theorem Tr.pure {a : α} {Q : α → Slv P C → Prop} (h : ∀ s, A s → Q a s) : Tr env A (M.pure a) Q J := h

theorem Tr.weaken {c : M P C α} {B : Slv P C → Prop} {Q R : α → Slv P C → Prop} (h : Tr env A c Q J)
    (hA : ∀ s, B s → A s) (hQ : ∀ a s, Q a s → R a s) : Tr env B c R J :=
  fun s hs => wp_mono (h s (hA s hs)) hQ (fun _ _ h => h)

theorem Tr.getS {f : Slv P C → M P C β} {R : β → Slv P C → Prop} (h : ∀ s, Tr env A (f s) R J) :
    Tr env A (getS >>= f) R J := fun s hs => by
  rw [wp_bind, wp_getS]; exact h s s hs

theorem Tr.ite {p : Prop} [Decidable p] {c d : M P C α} {Q : α → Slv P C → Prop} (h1 : p → Tr env A c Q J)
    (h2 : ¬ p → Tr env A d Q J) : Tr env A (if p then c else d) Q J := by
  split
  · exact h1 ‹_›
  · exact h2 ‹_›

/-- Postcondition of the body of a loop. -/
def BodyPost (I : α → Slv P C → Prop) (Q : β → Slv P C → Prop) (r : α ⊕ β) (s : Slv P C) : Prop :=
  match r with
  | .inl a => I a s
  | .inr b => Q b s

theorem Tr.loop {body : α → M P C (α ⊕ β)} {I : α → Slv P C → Prop} {Q : β → Slv P C → Prop} (fuel : Nat) (a : α)
    (hb : ∀ a, Tr env (I a) (body a) (BodyPost I Q) J) (hf : ∀ a s, I a s → J .fuel s) :
    Tr env (I a) (loopM body fuel a) Q J := fun s hs => by
  refine wp_loop_inv I fuel body a ?_ hf hs
  intro a s h
  refine wp_mono (hb a s h) ?_ (fun _ _ h => h)
  intro r s' hr
  cases r <;> exact hr

/-- An invariant that only concerns what is logged and reported. -/
structure Quiet (A : Slv P C → Prop) (J : Stop → Slv P C → Prop) : Prop where
  frame : ∀ {s s'}, s'.io = s.io → s'.front = s.front → s'.k.objs = s.k.objs ∧ s'.k.opts = s.k.opts → A s → A s'
  halt : ∀ {s} e, e = .panic ∨ e = .fuel ∨ e = .error → A s → J e s

namespace Quiet

variable (L : Quiet A J)
include L

theorem panic {Q : α → Slv P C → Prop} : Tr env A (stop .panic) Q J := fun _ h => L.halt _ (Or.inl rfl) h
theorem error {Q : α → Slv P C → Prop} : Tr env A (stop .error) Q J :=
  fun _ h => L.halt _ (Or.inr (Or.inr rfl)) h

theorem dbg (b : Bool) : Tr env A (dbg b) (fun _ => A) J := fun s h => by
  rw [wp_dbg_iff]
  split
  · exact L.halt _ (Or.inl rfl) h
  · exact h

theorem unwrap (o : Option α) : Tr env A (unwrap o) (fun _ => A) J := fun s h => by
  cases o
  · exact L.halt _ (Or.inl rfl) h
  · exact h

theorem orErr (o : Option α) : Tr env A (orErr o) (fun _ => A) J := fun s h => by
  cases o
  · exact L.halt _ (Or.inr (Or.inr rfl)) h
  · exact h

theorem modify {f : Slv P C → Slv P C} (h1 : ∀ s, (f s).io = s.io) (h2 : ∀ s, (f s).front = s.front)
    (h3 : ∀ s, (f s).k.objs = s.k.objs ∧ (f s).k.opts = s.k.opts) :
    Tr env A (modifyS f) (fun _ => A) J := fun s h => L.frame (h1 s) (h2 s) (h3 s) h

theorem addClause (cl : Clause) : Tr env A (addClause cl) (fun _ => A) J :=
  L.modify (fun _ => rfl) (fun _ => rfl) (fun _ => ⟨rfl, rfl⟩)

theorem addClauses (cls : List Clause) : Tr env A (addClauses cls) (fun _ => A) J := by
  induction cls with
  | nil => exact Tr.pure fun _ h => h
  | cons cl cls ih => exact (L.addClause cl).bind fun _ => ih

theorem freshVar : Tr env A freshVar (fun _ => A) J := fun s h => by
  exact L.frame (s := s) rfl rfl ⟨rfl, rfl⟩ h

theorem oracleSolution : Tr env A oracleSolution (fun _ => A) J := by
  refine Tr.getS fun s => (L.unwrap _).bind fun v => ?_
  split
  · exact Tr.pure fun _ h => h
  · exact L.error

theorem oracleCore : Tr env A oracleCore (fun _ => A) J := by
  refine Tr.getS fun s => ?_
  split
  · exact Tr.pure fun _ h => h
  · exact L.error

theorem getCost (i : Nat) (sol : Assignment) : Tr env A (getCost i sol) (fun _ => A) J :=
  Tr.getS fun _ => (L.unwrap _).bind fun _ => Tr.pure fun _ h => h

theorem flipLit (l : Lit) : Tr env A (flipLit l) (fun _ => A) J := fun s h => by
  unfold wp Scuttle.flipLit
  cases s.k.ostate with
  | sat m =>
    dsimp only
    cases env.flip s.io.tick s.k.db s.k.frozen m l with
    | some m' => exact L.frame (s := s) rfl rfl ⟨rfl, rfl⟩ h
    | none => exact h
  | _ => exact L.halt _ (Or.inr (Or.inr rfl)) h

theorem tryFlip (l : Lit) : Tr env A (tryFlip l) (fun _ => A) J :=
  Tr.getS fun _ => Tr.ite (fun _ => Tr.pure fun _ h => h) fun _ => L.flipLit _

theorem tightenLoop (ps : List (Lit × Nat)) : ∀ sol, Tr env A (tightenLoop ps sol) (fun _ => A) J := by
  induction ps with
  | nil => exact fun _ => Tr.pure fun _ h => h
  | cons x ps ih =>
    intro sol
    unfold Scuttle.tightenLoop
    refine Tr.ite (fun _ => (L.tryFlip _).bind fun b => ?_) fun _ => ih _
    exact Tr.ite (fun _ => (ih _).bind fun _ => Tr.pure fun _ h => h) fun _ => (ih _).bind fun _ => Tr.pure fun _ h => h

theorem rereadSol (o : Objective) (r : Nat × Nat × Assignment) : Tr env A (rereadSol o r) (fun _ => A) J := by
  refine Tr.ite (fun _ => Tr.ite (fun _ => L.panic) fun _ => Tr.getS fun s => ?_) fun _ => Tr.pure fun _ h => h
  split
  · exact (L.dbg _).bind fun _ => Tr.pure fun _ h => h
  · exact L.error

theorem getCostTight (hh : ∀ i a b, Tr env A (logEvent (.heurImprovement i a b)) (fun _ => A) J) (i : Nat)
    (sol : Assignment) (t : Bool) : Tr env A (getCostTight i sol t) (fun _ => A) J := by
  refine Tr.bind (Q := fun _ => A) (fun _ h => h) fun f => Tr.ite (fun _ => ?_) fun _ =>
    (L.getCost _ _).bind fun _ => Tr.pure fun _ h => h
  exact Tr.getS fun s => (L.unwrap _).bind fun o => (L.tightenLoop _ _).bind fun r => (L.rereadSol _ _).bind fun _ =>
    (hh _ _ _).bind fun _ => Tr.pure fun _ h => h

theorem tightCosts (hh : ∀ i a b, Tr env A (logEvent (.heurImprovement i a b)) (fun _ => A) J) (t : Bool) (n : Nat) :
    ∀ i sol, Tr env A (tightCosts t n i sol) (fun _ => A) J := by
  induction n with
  | zero => exact fun _ _ => Tr.pure fun _ h => h
  | succ n ih =>
    exact fun i sol => (L.getCostTight hh _ _ _).bind fun _ => (ih _ _).bind fun _ => Tr.pure fun _ h => h

theorem getSolutionAndCosts (hh : ∀ i a b, Tr env A (logEvent (.heurImprovement i a b)) (fun _ => A) J) (t : Bool) :
    Tr env A (getSolutionAndCosts t) (fun _ => A) J :=
  L.oracleSolution.bind fun _ => Tr.getS fun _ => (L.tightCosts hh _ _ _ _).bind fun _ =>
    (L.dbg _).bind fun _ => Tr.pure fun _ h => h

theorem externalize (costs : List Nat) : Tr env A (externalize costs) (fun _ => A) J :=
  Tr.getS fun _ => (L.dbg _).bind fun _ => Tr.bind (Q := fun _ => A) (fun _ h => h) fun _ => L.unwrap _

theorem blockSolution (sol : Assignment) : Tr env A (blockSolution sol) (fun _ => A) J := by
  refine Tr.getS fun s => ?_
  split
  · exact L.addClause _
  · exact (L.unwrap _).bind fun _ => L.addClause _
  · exact L.panic

theorem unphaseSolution : Tr env A unphaseSolution (fun _ => A) J :=
  Tr.getS fun _ => Tr.ite (fun _ => (L.unwrap _).bind fun _ => Tr.pure fun _ h => h) fun _ => Tr.pure fun _ h => h

variable [UbEnc P] [UbEnc C]

theorem encAt (i : Nat) : Tr env A (encAt i) (fun _ => A) J := Tr.getS fun _ => L.unwrap _

theorem extendEncoding (i lo hi : Nat) : Tr env A (extendEncoding i lo hi) (fun _ => A) J :=
  Tr.getS fun _ => (L.encAt i).bind fun _ => L.modify (fun _ => rfl) (fun _ => rfl) (fun _ => ⟨rfl, rfl⟩)

theorem domBlockLoop (cs : List Nat) : ∀ (i : Nat) (cl : Clause),
    Tr env A (domBlockLoop i cs cl) (fun _ => A) J := by
  induction cs with
  | nil => exact fun i cl => Tr.pure fun _ h => h
  | cons x cs ih =>
    intro i cl
    refine (L.encAt i).bind fun e => Tr.ite (fun _ => ih _ _) fun _ => Tr.ite (fun _ => ih _ _) fun _ => ?_
    refine (L.extendEncoding _ _ _).bind fun _ => (L.encAt i).bind fun e => (L.orErr _).bind fun ls => ?_
    split
    · exact ih _ _
    · exact (L.dbg _).bind fun _ => L.freshVar.bind fun v => (L.addClauses _).bind fun _ => ih _ _

theorem dominatedBlockClause (costs : List Nat) :
    Tr env A (dominatedBlockClause costs) (fun _ => A) J :=
  Tr.getS fun _ => (L.dbg _).bind fun _ => L.domBlockLoop costs 0 []

theorem tmpBlockDominated (costs : List Nat) : Tr env A (tmpBlockDominated costs) (fun _ => A) J :=
  Tr.getS fun _ => (L.dbg _).bind fun _ => (L.dominatedBlockClause costs).bind fun _ => L.freshVar.bind fun _ =>
    (L.addClause _).bind fun _ => Tr.pure fun _ h => h

theorem enforceDomEncode (cs : List Nat) : ∀ i, Tr env A (enforceDomEncode i cs) (fun _ => A) J := by
  induction cs with
  | nil => exact fun i => Tr.pure fun _ h => h
  | cons x cs ih => exact fun i => (L.extendEncoding _ _ _).bind fun _ => ih _

theorem enforceDomLits (cs : List Nat) : ∀ i, Tr env A (enforceDomLits i cs) (fun _ => A) J := by
  induction cs with
  | nil => exact fun i => Tr.pure fun _ h => h
  | cons x cs ih =>
    exact fun i => (L.encAt _).bind fun _ => (L.unwrap _).bind fun _ => (ih _).bind fun _ => Tr.pure fun _ h => h

theorem enforceDominating (costs : List Nat) : Tr env A (enforceDominating costs) (fun _ => A) J :=
  Tr.getS fun _ => (L.dbg _).bind fun _ => (L.enforceDomEncode _ _).bind fun _ => L.enforceDomLits _ _

theorem commitBlock (bs : Option Lit) : Tr env A (commitBlock bs) (fun _ => A) J := by
  cases bs
  · exact Tr.pure fun _ h => h
  · exact L.addClause _

theorem pminBlock (base : List Lit) (costs : List Nat) (bs : Option Lit) :
    Tr env A (pminBlock base costs bs) (fun _ => A) J :=
  Tr.getS fun _ => Tr.ite
    (fun _ => (L.dominatedBlockClause _).bind fun _ => (L.addClause _).bind fun _ => Tr.pure fun _ h => h)
    fun _ => (L.commitBlock _).bind fun _ => (L.tmpBlockDominated _).bind fun _ => Tr.pure fun _ h => h

theorem updateFenceLoop (core : List Lit) : ∀ found, Tr env A (updateFenceLoop core found) (fun _ => A) J := by
  induction core with
  | nil => exact fun _ => Tr.pure fun _ h => h
  | cons l core ih =>
    intro found
    refine Tr.getS fun s => ?_
    split
    · exact ih _
    · refine (L.unwrap _).bind fun _ => (L.encAt _).bind fun _ => (L.unwrap _).bind fun _ =>
        (L.extendEncoding _ _ _).bind fun _ => (L.encAt _).bind fun _ => (L.unwrap _).bind fun _ =>
        Tr.bind (Q := fun _ => A) (fun s h => L.frame (s := s) rfl rfl ⟨rfl, rfl⟩ h) fun _ => ih _

end Quiet

/-- An invariant `I depth pending called` of the logging primitives: `depth` is the number of open routines, `pending`
the number of solutions counted for the point that is being built, `called` tells that the oracle has answered. `J` holds
if a computation stops early. Fences are not considered. -/
structure IoCore (env : Env) (I : Nat → Nat → Bool → Slv P C → Prop) (J : Stop → Slv P C → Prop) : Prop where
  frame : ∀ {d p c s s'}, s'.io = s.io → s'.front = s.front → I d p c s → I d p c s'
  called : ∀ {d p c s}, I d p true s → I d p c s
  halt : ∀ {d p c s} e, e = .panic ∨ e = .fuel ∨ e = .error → I d p c s → J e s
  start : ∀ {d p c} x, Tr env (I d p c) (logRoutineStart x) (fun _ => I (d + 1) p c) J
  finish : ∀ {d p c}, Tr env (I (d + 1) p c) logRoutineEnd (fun _ => I d p c) J
  check : ∀ {d p c}, Tr env (I d p c) checkTermination (fun _ => I d p c) J
  cand : ∀ {d p c} costs ph, Tr env (I d p c) (logCandidate costs ph) (fun _ => I d p c) J
  call : ∀ {d p c} a, Tr env (I (d + 1) p c) (solveAssumps a) (fun _ => I (d + 1) p true) J
  heur : ∀ {d p c} i a b, Tr env (I d p c) (logEvent (.heurImprovement i a b)) (fun _ => I d p c) J
  sol : ∀ {d p c} (nd : NonDomPoint Assignment), nd.sols.length = p + 1 →
    Tr env (I (d + 1) p c) (attempt logSolution) (fun r s => match r with
      | .ok () => I (d + 1) (p + 1) c s
      | .error e => wp env (do
          let ndTerm ← attempt (logNonDominated nd)
          collect nd
          ofExcept ndTerm
          stop e : M P C Unit) (fun _ _ => True) J s) J
  point : ∀ {d p c} (nd : NonDomPoint Assignment), nd.sols.length = p →
    Tr env (I (d + 1) p c) (do
      let ppTerm ← attempt (logNonDominated nd)
      collect nd
      logRoutineEnd
      ofExcept ppTerm : M P C Unit) (fun _ => I d 0 c) J

namespace IoCore

variable {I : Nat → Nat → Bool → Slv P C → Prop} (L : IoCore env I J) {d p : Nat} {c : Bool}
include L

theorem q : Quiet (I d p c) J := ⟨fun h1 h2 _ h => L.frame h1 h2 h, L.halt⟩

theorem pointRet {R : Type} {r : R} (nd : NonDomPoint Assignment) (hp : nd.sols.length = p)
    {Q : R → Slv P C → Prop} (hQ : ∀ s, I d 0 c s → Q r s) :
    Tr env (I (d + 1) p c) (do
      let ppTerm ← attempt (logNonDominated nd)
      collect nd
      logRoutineEnd
      ofExcept ppTerm
      M.pure r : M P C R) Q J := fun s hs => by
  have h := L.point nd hp s hs
  simp only [wp_bind, wp_pure] at h ⊢
  refine wp_mono h ?_ (fun _ _ h => h)
  intro a s' h
  refine wp_mono h ?_ (fun _ _ h => h)
  intro a s' h
  refine wp_mono h ?_ (fun _ _ h => h)
  intro a s' h
  exact wp_mono h (fun _ s h => hQ s h) (fun _ _ h => h)

theorem yieldBody (costs : List Nat) (assumps : List Lit) (st : NonDomPoint Assignment × Assignment) :
    Tr env (I (d + 1) st.1.sols.length c) (yieldBody costs assumps st)
      (BodyPost (fun st => I (d + 1) st.1.sols.length c) (fun _ => I d 0 c)) J := by
  refine Tr.getS fun s => (L.q.dbg _).bind fun _ => ?_
  have hl : (st.1.addSol (st.2.truncate s.k.vm.maxOrigVar)).sols.length = st.1.sols.length + 1 := by
    simp [NonDomPoint.addSol]
  refine Tr.bind (L.sol _ hl) fun r => ?_
  cases r with
  | error e =>
    intro s' h
    simp only [wp_bind, wp_stop] at h ⊢
    exact h
  | ok u =>
    refine Tr.ite (fun _ => ?_) fun _ => ?_
    · exact L.pointRet _ hl fun _ h => h
    · refine L.check.bind fun _ => (L.q.blockSolution _).bind fun _ => (L.call _).bind fun res => ?_
      refine Tr.weaken (A := I (d + 1) (st.1.sols.length + 1) c) ?_ (fun s h => L.called h) (fun _ _ h => h)
      refine Tr.ite (fun _ => L.pointRet _ hl fun _ h => h) fun _ => ?_
      refine L.check.bind fun _ => L.q.oracleSolution.bind fun sol => Tr.pure fun s h => ?_
      simp only [BodyPost]
      rw [hl]
      exact h

theorem yieldSolutions (fuel : Nat) (costs : List Nat) (assumps : List Lit) (sol : Assignment) :
    Tr env (I d 0 c) (yieldSolutions fuel costs assumps sol) (fun _ => I d 0 c) J := by
  refine Tr.getS fun s => (L.q.dbg _).bind fun _ => (L.start _).bind fun _ => L.q.unphaseSolution.bind fun _ =>
    (L.q.externalize _).bind fun ext => ?_
  exact Tr.loop (I := fun st : NonDomPoint Assignment × Assignment => I (d + 1) st.1.sols.length c) fuel
    (NonDomPoint.new ext, sol) (fun st => L.yieldBody costs assumps st)
    fun _ _ h => L.halt _ (Or.inr (Or.inl rfl)) h

variable [UbEnc P] [UbEnc C]

theorem linsuBody (oi ei : Nat) (base : List Lit) (lb : Nat) (st : Nat × Option Assignment) :
    Tr env (I (d + 1) p c) (linsuBody oi ei base lb st) (BodyPost (fun _ => I (d + 1) p c) (fun _ => I (d + 1) p c)) J := by
  refine Tr.ite (fun _ => ?_) fun _ => Tr.pure fun _ h => h
  refine (L.q.extendEncoding _ _ _).bind fun _ => (L.q.encAt _).bind fun e => (L.q.unwrap _).bind fun ls =>
    (L.call _).bind fun res => ?_
  refine Tr.weaken (A := I (d + 1) p c) ?_ (fun s h => L.called h) (fun _ _ h => h)
  split
  · refine L.q.oracleSolution.bind fun sol => (L.q.getCost _ _).bind fun nc => (L.q.dbg _).bind fun _ =>
      Tr.getS fun s => (L.cand _ _).bind fun _ => Tr.pure fun _ h => h
  · exact Tr.pure fun _ h => h
  · exact L.q.panic

theorem linsuFinish (ei : Nat) (base : List Lit) (st : Nat × Option Assignment) :
    Tr env (I (d + 1) p c) (linsuFinish ei base st) (fun _ => I d p c) J := by
  unfold Scuttle.linsuFinish
  split
  · exact L.finish.bind fun _ => Tr.pure fun _ h => h
  · refine (L.q.extendEncoding _ _ _).bind fun _ => (L.q.encAt _).bind fun e => (L.q.unwrap _).bind fun ls =>
      (L.call _).bind fun res => ?_
    refine Tr.weaken (A := I (d + 1) p c) ?_ (fun s h => L.called h) (fun _ _ h => h)
    exact (L.q.dbg _).bind fun _ => L.q.oracleSolution.bind fun _ => L.finish.bind fun _ => Tr.pure fun _ h => h

theorem linsuRest (fuel oi ei : Nat) (base : List Lit) (lb : Nat) (b : Nat × Option Assignment) :
    Tr env (I (d + 1) p c) (do
      let st ← loopM (Scuttle.linsuBody oi ei base lb) fuel b
      let r ← Scuttle.linsuFinish ei base st
      M.pure (some r)) (fun _ => I d p c) J :=
  (Tr.loop (I := fun _ => I (d + 1) p c) fuel b (fun st => L.linsuBody oi ei base lb st)
    fun _ _ h => L.halt _ (Or.inr (Or.inl rfl)) h).bind
    fun st => (L.linsuFinish ei base st).bind fun _ => Tr.pure fun _ h => h

theorem linsu (fuel oi ei : Nat) (base : List Lit) (ub : Option (Nat × Option Assignment)) (lb : Option Nat) :
    Tr env (I d p c) (linsu fuel oi ei base ub lb) (fun _ => I d p c) J := by
  refine (L.start _).bind fun _ => ?_
  split
  · exact L.linsuRest _ _ _ _ _ _
  · refine (L.call _).bind fun res => ?_
    refine Tr.weaken (A := I (d + 1) p c) ?_ (fun s h => L.called h) (fun _ _ h => h)
    refine Tr.ite (fun _ => L.finish.bind fun _ => Tr.pure fun _ h => h) fun _ => ?_
    exact L.q.oracleSolution.bind fun _ => (L.q.getCostTight L.heur _ _ _).bind fun _ => L.linsuRest _ _ _ _ _ _

theorem linsuYield (fuel oi ei : Nat) (base : List Lit) (ub : Option (Nat × Option Assignment)) (lb : Option Nat) :
    Tr env (I d 0 c) (linsuYield fuel oi ei base ub lb) (fun _ => I d 0 c) J := by
  refine (L.linsu fuel oi ei base ub lb).bind fun r => ?_
  split
  · exact Tr.pure fun _ h => h
  · refine Tr.getS fun s => (L.q.dbg _).bind fun _ => (L.q.extendEncoding _ _ _).bind fun _ => (L.q.encAt _).bind fun e =>
      (L.q.unwrap _).bind fun ls => (L.yieldSolutions _ _ _ _).bind fun _ => Tr.pure fun _ h => h

/-! ## P-minimal -/

theorem pminBody (base : List Lit) (st : PMinState) :
    Tr env (I (d + 1) p c) (pminBody base st) (BodyPost (fun _ => I (d + 1) p c) (fun _ => I d p c)) J := by
  refine (L.q.pminBlock _ _ _).bind fun r => ?_
  obtain ⟨bs, pre⟩ := r
  refine (L.q.enforceDominating _).bind fun dom => (L.call _).bind fun res => ?_
  refine Tr.weaken (A := I (d + 1) p c) ?_ (fun s h => L.called h) (fun _ _ h => h)
  refine Tr.ite (fun _ => L.finish.bind fun _ => Tr.pure fun _ h => h) fun _ => ?_
  refine L.check.bind fun _ => Tr.getS fun _ => (L.q.getSolutionAndCosts L.heur _).bind fun r => ?_
  exact (L.cand _ _).bind fun _ => L.check.bind fun _ => Tr.pure fun _ h => h

theorem pMinimization (fuel : Nat) (costs : List Nat) (sol : Assignment) (base : List Lit) :
    Tr env (I d p c) (pMinimization fuel costs sol base) (fun _ => I d p c) J :=
  Tr.getS fun _ => (L.q.dbg _).bind fun _ => (L.start _).bind fun _ =>
    Tr.loop (I := fun _ => I (d + 1) p c) fuel _ (fun st => L.pminBody base st)
      fun _ _ h => L.halt _ (Or.inr (Or.inl rfl)) h

theorem harvestBody (fuel : Nat) (assumps base : List Lit) (u : Unit) :
    Tr env (I (d + 1) 0 c) (harvestBody fuel assumps base u)
      (BodyPost (fun _ => I (d + 1) 0 c) (fun _ => I d 0 true)) J := by
  refine (L.call _).bind fun res => ?_
  refine Tr.ite (fun _ => L.finish.bind fun _ => Tr.pure fun _ h => h) fun _ => ?_
  refine Tr.weaken (A := I (d + 1) 0 c) ?_ (fun s h => L.called h) (fun _ _ h => h)
  refine L.check.bind fun _ => Tr.getS fun _ => (L.q.getSolutionAndCosts L.heur _).bind fun r => (L.cand _ _).bind fun _ => L.check.bind fun _ => ?_
  refine (L.pMinimization _ _ _ _).bind fun r => (L.q.enforceDominating _).bind fun _ =>
    (L.yieldSolutions _ _ _ _).bind fun _ => (L.q.commitBlock _).bind fun _ => Tr.pure fun _ h => h

theorem pminMain (fuel : Nat) : Tr env (I d 0 c) (pminMain fuel) (fun _ => I d 0 true) J :=
  Tr.getS fun _ => (L.q.dbg _).bind fun _ => (L.start _).bind fun _ =>
    Tr.loop (I := fun _ => I (d + 1) 0 c) fuel () (fun u => L.harvestBody fuel [] [] u)
      fun _ _ h => L.halt _ (Or.inr (Or.inl rfl)) h

/-! ## LowerBounding -/

theorem updateFenceLoop (core : List Lit) (found : List Bool) :
    Tr env (I d p c) (updateFenceLoop core found) (fun _ => I d p c) J := L.q.updateFenceLoop core found

theorem harvest (fuel : Nat) (base : List Lit) : Tr env (I d 0 c) (harvest fuel base) (fun _ => I d 0 true) J :=
  Tr.getS fun _ => (L.q.dbg _).bind fun _ => (L.start _).bind fun _ =>
    Tr.loop (I := fun _ => I (d + 1) 0 c) fuel () (fun u => L.harvestBody fuel _ base u)
      fun _ _ h => L.halt _ (Or.inr (Or.inl rfl)) h

theorem initFenceLoop (n : Nat) : ∀ i, Tr env (I d p c) (initFenceLoop i n) (fun _ => I d p c) J := by
  induction n with
  | zero => exact fun _ => Tr.pure fun _ h => h
  | succ n ih =>
    exact fun i => (L.q.encAt _).bind fun _ => (L.q.extendEncoding _ _ _).bind fun _ => (L.q.encAt _).bind fun _ =>
      (L.q.unwrap _).bind fun _ => Tr.bind (Q := fun _ => I d p c) (fun s h => L.frame (s := s) rfl rfl h) fun _ => ih _

theorem initFence : Tr env (I d p c) initFence (fun _ => I d p c) J :=
  Tr.getS fun _ => Tr.ite (fun _ => L.initFenceLoop _ _) fun _ => Tr.pure fun _ h => h

/-! ## BiOptSat -/

theorem bosNext (incObj : Nat) (base : List Lit) (incCost decCost : Nat) :
    Tr env (I (d + 1) p c) (bosNext incObj base incCost decCost)
      (BodyPost (fun _ => I (d + 1) p c) (fun _ => I d p c)) J := by
  refine (L.q.extendEncoding _ _ _).bind fun _ => (L.q.encAt _).bind fun _ => (L.q.orErr _).bind fun _ =>
    (L.q.addClauses _).bind fun _ => (L.call _).bind fun res => ?_
  refine Tr.weaken (A := I (d + 1) p c) ?_ (fun s h => L.called h) (fun _ _ h => h)
  split
  · exact L.q.oracleSolution.bind fun _ => (L.q.getCostTight L.heur _ _ _).bind fun _ => Tr.pure fun _ h => h
  · exact L.finish.bind fun _ => Tr.pure fun _ h => h
  · exact L.q.panic

theorem bosBody (fuel incObj decObj : Nat) (base : List Lit) (decLb : Nat) (lookup : Nat → Option Nat) (st : BosState) :
    Tr env (I (d + 1) 0 c) (bosBody fuel incObj decObj base decLb lookup st)
      (BodyPost (fun _ => I (d + 1) 0 c) (fun _ => I d 0 c)) J := by
  refine (L.linsu _ _ _ _ _ _).bind fun r => ?_
  split
  · exact L.finish.bind fun _ => Tr.pure fun _ h => h
  · refine (L.q.getCost _ _).bind fun dc => Tr.bind (Q := fun _ => I (d + 1) 0 c) ?_ fun dc => Tr.ite
      (fun _ => L.finish.bind fun _ => Tr.pure fun _ h => h) fun _ => L.bosNext _ _ _ _
    split
    · exact Tr.pure fun _ h => h
    · exact (L.q.extendEncoding _ _ _).bind fun _ => (L.q.encAt _).bind fun _ => (L.q.unwrap _).bind fun _ =>
        (L.linsuYield _ _ _ _ _ _).bind fun _ => (L.q.unwrap _).bind fun _ => Tr.pure fun _ h => h

/-- `BiOptSat` does not close its routine if the instance has no solution. -/
theorem bosMain (fuel : Nat) :
    Tr env (I d 0 c) (bosMain fuel) (fun _ s => I d 0 true s ∨ I (d + 1) 0 true s) J := by
  refine (L.start _).bind fun _ => Tr.getS fun s => (L.q.dbg _).bind fun _ => (L.q.encAt _).bind fun _ =>
    (L.q.encAt _).bind fun _ => ?_
  refine (L.call _).bind fun res => Tr.ite (fun _ => Tr.pure fun _ h => Or.inr h) fun _ => ?_
  refine L.q.oracleSolution.bind fun _ => (L.q.getCostTight L.heur _ _ _).bind fun _ => ?_
  refine Tr.loop (I := fun _ => I (d + 1) 0 true) fuel _ (fun st => ?_) fun _ _ h => L.halt _ (Or.inr (Or.inl rfl)) h
  refine (L.bosBody fuel 0 1 [] _ _ st).weaken (fun _ h => h) ?_
  intro r s h
  cases r
  · exact h
  · exact Or.inl h

end IoCore

/-- An invariant that also allows fences to be logged. -/
structure IoLogic (env : Env) (I : Nat → Nat → Bool → Slv P C → Prop) (J : Stop → Slv P C → Prop) : Prop
    extends IoCore env I J where
  fence : ∀ {d p c} b, Tr env (I d p c) (logEvent (.fence b)) (fun _ => I d p c) J

namespace IoLogic

variable [UbEnc P] [UbEnc C]
variable {I : Nat → Nat → Bool → Slv P C → Prop} (L : IoLogic env I J) {d p : Nat} {c : Bool}
include L

theorem updateFence (core : List Lit) : Tr env (I d p c) (updateFence core) (fun _ => I d p c) J :=
  Tr.getS fun _ => (L.updateFenceLoop _ _).bind fun _ => Tr.getS fun _ => L.fence _

theorem lbBody (fuel : Nat) (u : Unit) :
    Tr env (I (d + 1) 0 c) (lbBody fuel u) (BodyPost (fun _ => I (d + 1) 0 c) (fun _ => I d 0 true)) J := by
  refine Tr.getS fun s => (L.call _).bind fun res => ?_
  split
  · exact (L.harvest _ _).bind fun _ => Tr.pure fun _ h => L.called h
  · refine L.q.oracleCore.bind fun core => Tr.ite (fun _ => L.finish.bind fun _ => Tr.pure fun _ h => h) fun _ => ?_
    exact Tr.getS fun _ => (L.updateFence _).bind fun _ => Tr.getS fun _ => (L.q.dbg _).bind fun _ =>
      Tr.pure fun _ h => L.called h
  · exact L.q.panic

theorem lbMain (fuel : Nat) : Tr env (I d 0 c) (lbMain fuel) (fun _ => I d 0 true) J :=
  Tr.getS fun _ => (L.q.dbg _).bind fun _ => (L.start _).bind fun _ => L.initFence.bind fun _ =>
    Tr.loop (I := fun _ => I (d + 1) 0 c) fuel () (fun u => L.lbBody fuel u)
      fun _ _ h => L.halt _ (Or.inr (Or.inl rfl)) h

/-- The invariant at the start of a call gives the invariant at its end. -/
theorem solve (alg : Alg) (fuel : Nat) (limits : Limits) {s : Slv P C}
    (h : wp env (startSolving limits) (fun _ => I d 0 false) J s) :
    wp env (alg.solve fuel limits)
      (fun _ s => I d 0 true s ∨ (alg = .biOptSat ∧ I (d + 1) 0 true s)) J s := by
  cases alg with
  | pMinimal =>
    show wp env (do startSolving limits; Scuttle.pminMain fuel) _ J s
    rw [wp_bind]
    exact wp_mono h (fun _ s h => wp_mono (L.pminMain fuel s h) (fun _ _ h => Or.inl h) fun _ _ h => h) fun _ _ h => h
  | lowerBounding =>
    show wp env (do startSolving limits; Scuttle.lbMain fuel) _ J s
    rw [wp_bind]
    exact wp_mono h (fun _ s h => wp_mono (L.lbMain fuel s h) (fun _ _ h => Or.inl h) fun _ _ h => h) fun _ _ h => h
  | biOptSat =>
    show wp env (do startSolving limits; Scuttle.bosMain fuel) _ J s
    rw [wp_bind]
    exact wp_mono h (fun _ s h => wp_mono (L.bosMain fuel s h)
      (fun _ _ h => h.imp_right fun h => ⟨rfl, h⟩) fun _ _ h => h) fun _ _ h => h

end IoLogic

end Scuttle
