import Mathlib.Data.List.Perm.Subperm
import Verif.Proof.Guard

/-!
# Rule for `yield_solutions`
-/

set_option linter.unusedSectionVars false

namespace Scuttle

open Spec

variable {P C : Type} [UbEnc P] [UbEnc C] [LawfulUbEnc P] [LawfulUbEnc C]
variable {env : Env} {E : Stop → Slv P C → Prop} {s : Slv P C} {pb : Pb} {A : Asg → Prop}

/-! ## External costs -/

/-- Value of an objective as the user sees it. -/
def extVal (o : Objective) (t : Asg) : Int := (icost o t * o.unitWeight : Nat) + o.offset

/-- External cost vector. -/
def Pb.ext (pb : Pb) (t : Asg) : List Int := pb.objs.map fun o => extVal o t

/-- The costs of all solutions fit into `isize`. -/
def Pb.Fits (pb : Pb) : Prop := ∀ t, pb.Sol t → ∀ o ∈ pb.objs, icost o t * o.unitWeight ≤ isizeMax

theorem externalizeOne_eq (d : Bool) (o : Objective) (t : Asg) (h : icost o t * o.unitWeight ≤ isizeMax) :
    externalizeOne d o (icost o t) = some (extVal o t) := by
  cases o with
  | weighted off lits idx lb =>
    simp only [Objective.unitWeight, Nat.mul_one] at h
    simp [externalizeOne, extVal, Objective.unitWeight, Objective.offset, h]
  | unweighted off w lits idx lb =>
    simp only [Objective.unitWeight] at h
    simp [externalizeOne, extVal, Objective.unitWeight, Objective.offset, h]
  | constant off idx lb =>
    simp [externalizeOne, extVal, Objective.offset, icost, Objective.iter, linear]

theorem externalizeLoop_eq (d : Bool) (os : List Objective) (t : Asg)
    (h : ∀ o ∈ os, icost o t * o.unitWeight ≤ isizeMax) :
    externalizeLoop d os (os.map fun o => icost o t) = some (os.map fun o => extVal o t) := by
  induction os with
  | nil => rfl
  | cons o os ih =>
    simp only [List.map_cons, externalizeLoop]
    rw [externalizeOne_eq d o t (h o (by simp)), ih fun o ho => h o (by simp [ho])]
    rfl

theorem wp_externalize {n : Nat} {Q : List Int → Slv P C → Prop} (hn : n = pb.objs.length) (hio : IoInv env n s.io)
    (hi : DBInv pb A s) (hfit : pb.Fits) {t : Asg} (ht : pb.Sol t) (hQ : Q (pb.ext t) s) :
    wp env (externalize (pb.costs t)) Q E s := by
  unfold externalize
  rw [wp_bind, wp_getS, wp_bind]
  refine wp_dbg (by simp [hio.base.1, hn]) ?_
  rw [wp_bind, wp_isDebug, hi.objs]
  unfold Pb.costs
  rw [externalizeLoop_eq _ _ _ (hfit t ht), wp_unwrap_some]
  exact hQ

/-! ## Points of the front -/

/-- The number of solutions at a point is allowed by the options. -/
def CountOK (e : EnumOptions) (n : Nat) : Prop :=
  match e with
  | .noEnum => n = 1
  | .solutions (some k) => n ≤ max k 1
  | .pmcss (some k) => n ≤ max k 1
  | _ => True

/-- A reported point: its costs are the external costs of a non-dominated solution with internal costs `c`, and its
solutions are distinct restrictions of such solutions to the original variables. Each solution satisfies the clauses
added after the earlier ones. -/
structure PointOK (pb : Pb) (p : NonDomPoint Assignment) (c : List Nat) : Prop where
  costs : ∃ t, pb.NonDom t ∧ pb.costs t = c ∧ p.costs = pb.ext t
  nonempty : p.sols ≠ []
  nodup : p.sols.Nodup
  sols : ∀ x ∈ p.sols, ∃ t, pb.NonDom t ∧ pb.costs t = c ∧ x = Assignment.ofModel t pb.nOrig
  count : CountOK pb.en p.sols.length
  unblocked : p.sols.Pairwise fun x y => ∀ cl, pb.blk x = some cl → ∃ t, y = Assignment.ofModel t pb.nOrig ∧
    clauseEval t cl = true

/-- Clause added after a solution was found. -/
def blkOf (k : Kern) (sol : Assignment) : Option Clause :=
  match k.opts.enumeration with
  | .solutions _ => some (k.bcg sol)
  | .pmcss _ => blockParetoMcs k.objs sol
  | .noEnum => none

/-- What is needed of blocking clauses: they talk about the variables of the problem, block the solution they were made
for, and only block solutions that are not better. -/
def BlockOK (pb : Pb) (blk : Assignment → Option Clause) : Prop :=
  ∀ t, pb.NonDom t → ∃ cl, blk (Assignment.ofModel t pb.nOrig) = some cl ∧ LitsBelow pb.n0 cl ∧
    (∀ t', AgreeBelow pb.nOrig t t' → clauseEval t' cl = false) ∧
    (∀ t', pb.Sol t' → clauseEval t' cl = false → VLe (pb.costs t) (pb.costs t'))

/-- Every solution with costs `c` is blocked by one of the reported ones. -/
def Complete (pb : Pb) (blk : Assignment → Option Clause) (p : NonDomPoint Assignment) (c : List Nat) : Prop :=
  ∀ t, pb.Sol t → pb.costs t = c → ∃ x ∈ p.sols, ∃ cl, blk x = some cl ∧ clauseEval t cl = false

/-- The solutions at a point are as many as the options ask for. -/
def EnumFull (pb : Pb) (e : EnumOptions) (blk : Assignment → Option Clause) (p : NonDomPoint Assignment)
    (c : List Nat) : Prop :=
  match e with
  | .noEnum => p.sols.length = 1
  | .solutions none => Complete pb blk p c
  | .pmcss none => Complete pb blk p c
  | .solutions (some k) => p.sols.length ≤ max k 1 ∧ (k ≤ p.sols.length ∨ Complete pb blk p c)
  | .pmcss (some k) => p.sols.length ≤ max k 1 ∧ (k ≤ p.sols.length ∨ Complete pb blk p c)

theorem enumFull_of_done {e : EnumOptions} {blk : Assignment → Option Clause} {p : NonDomPoint Assignment} {c : List Nat}
    (h : enumDone e p.nSols = true)
    (hp : p.sols.length = 1 ∨ (p.sols ≠ [] ∧ enumDone e (p.sols.length - 1) = false)) : EnumFull pb e blk p c := by
  unfold EnumFull
  unfold enumDone NonDomPoint.nSols at h
  unfold enumDone at hp
  rcases e with _ | (_ | k) | (_ | k)
  · simpa using hp
  · simp at h
  · simp only [ge_iff_le, decide_eq_true_eq, decide_eq_false_iff_not, not_le] at h hp
    exact ⟨by rcases hp with hp | hp <;> omega, .inl h⟩
  · simp at h
  · simp only [ge_iff_le, decide_eq_true_eq, decide_eq_false_iff_not, not_le] at h hp
    exact ⟨by rcases hp with hp | hp <;> omega, .inl h⟩

theorem enumFull_of_complete {e : EnumOptions} {blk : Assignment → Option Clause} {p : NonDomPoint Assignment}
    {c : List Nat} (h : enumDone e p.nSols = false) (hc : Complete pb blk p c) : EnumFull pb e blk p c := by
  unfold EnumFull
  unfold enumDone NonDomPoint.nSols at h
  rcases e with _ | (_ | k) | (_ | k)
  · simp at h
  · exact hc
  · simp only [ge_iff_le, decide_eq_false_iff_not, not_le] at h
    exact ⟨by omega, .inr hc⟩
  · exact hc
  · simp only [ge_iff_le, decide_eq_false_iff_not, not_le] at h
    exact ⟨by omega, .inr hc⟩

/-! ## Counting solutions -/

/-- All lists of `n` Boolean values. -/
def allTV : Nat → List Assignment
  | 0 => [[]]
  | n + 1 => (allTV n).map (TV.tt :: ·) ++ (allTV n).map (TV.ff :: ·)

theorem length_allTV (n : Nat) : (allTV n).length = 2 ^ n := by
  induction n with
  | zero => rfl
  | succ n ih => simp [allTV, ih, Nat.pow_succ]; omega

theorem mem_allTV (l : List Bool) : l.map TV.ofBool ∈ allTV l.length := by
  induction l with
  | nil => simp [allTV]
  | cons b l ih =>
    simp only [List.map_cons, List.length_cons, allTV, List.mem_append, List.mem_map]
    cases b
    · exact .inr ⟨_, ih, rfl⟩
    · exact .inl ⟨_, ih, rfl⟩

theorem ofModel_mem_allTV (m : Asg) (n : Nat) : Assignment.ofModel m n ∈ allTV n := by
  have := mem_allTV ((List.range n).map m)
  simpa [Assignment.ofModel, List.map_map, Function.comp_def] using this

theorem length_le_of_nodup {n : Nat} {l : List Assignment} (hn : l.Nodup)
    (h : ∀ x ∈ l, ∃ t, x = Assignment.ofModel t n) : l.length ≤ 2 ^ n := by
  rw [← length_allTV n]
  refine (List.subperm_of_subset hn ?_).length_le
  intro x hx
  obtain ⟨t, rfl⟩ := h x hx
  exact ofModel_mem_allTV t n

/-! ## The loop -/

/-- Solutions that satisfy the blocking clauses of the solutions in `xs`. -/
def Unblocked (blk : Assignment → Option Clause) (xs : List Assignment) (t : Asg) : Prop :=
  ∀ x ∈ xs, ∀ cl, blk x = some cl → clauseEval t cl = true

/-- How `yield_solutions` may stop early. -/
structure YieldStop (pb : Pb) (env : Env) (A : Asg → Prop) (c : List Nat) (fuel : Nat) (s : Slv P C) (e : Stop)
    (s' : Slv P C) : Prop where
  base : IoBase pb.objs.length s'.io
  panic : e ≠ .panic
  error : e = .error → LogFail env
  fuel : e = .fuel → fuel ≤ 2 ^ pb.nOrig
  front : s'.front = s.front ∨ ∃ p, s'.front = s.front ++ [p] ∧ PointOK pb p c
  opts : s'.k.opts = s.k.opts
  bcg : s'.k.bcg = s.k.bcg
  noEnum : s.k.opts.enumeration = .noEnum → s'.fence = s.fence ∧ EncStep s s' ∧ DBInv pb A s' ∧
    ((e ≠ .terminated .ppLimit ∧ e ≠ .terminated .solsLimit ∧ s'.front = s.front) ∨
      ∃ p, s'.front = s.front ++ [p] ∧ PointOK pb p c ∧ p.sols.length = 1)

/-- State after `yield_solutions`. -/
structure YieldDone (pb : Pb) (env : Env) (A B : Asg → Prop) (c : List Nat) (g : Option Lit) (s s' : Slv P C) :
    Prop where
  io : IoInv env pb.objs.length s'.io
  front : ∃ p, s'.front = s.front ++ [p] ∧ PointOK pb p c ∧ EnumFull pb s.k.opts.enumeration (blkOf s.k) p c
  opts : s'.k.opts = s.k.opts
  bcg : s'.k.bcg = s.k.bcg
  fence : s'.fence = s.fence
  enc : EncStep s s'
  next : s.k.vm.nextVar ≤ s'.k.vm.nextVar
  db : ∃ cs, s'.k.db = s.k.db ++ cs
  inv : ∃ A', (∀ t, A' t → A t) ∧ (∀ t, pb.Sol t → A t → ¬ VLe c (pb.costs t) → A' t) ∧ DBInv pb A' s' ∧
    GuardO pb A' B s' g

theorem GuardO.added {B B' : Asg → Prop} {s s' : Slv P C} {g : Option Lit} {c : Clause} (h : GuardO pb A B s g)
    (ha : Added c s s') (hc : LitsBelow pb.n0 c) (hB : ∀ t, B' t → clauseEval t c = true) :
    GuardO pb (fun t => A t ∧ B' t) B s' g := by
  cases g with
  | none => exact h
  | some g => exact Guard.added h ha hc hB

theorem GuardO.congr {A' B : Asg → Prop} {g : Option Lit} (h : GuardO pb A B s g)
    (hA : ∀ t, pb.Sol t → A' t → A t) : GuardO pb A' B s g := by
  cases g with
  | none => exact h
  | some g => exact Guard.congr h hA

/-- Same state except for `io`, the oracle and one more point in the front. -/
structure SameF (p : NonDomPoint Assignment) (s s' : Slv P C) : Prop where
  k : s'.k = { s.k with ostate := s'.k.ostate }
  encs : s'.encs = s.encs
  front : s'.front = s.front ++ [p]
  fence : s'.fence = s.fence

/-- The state without the change to the front. -/
theorem SameF.dbinv {p} {s s' : Slv P C} (h : SameF p s s') (hi : DBInv pb A s) : DBInv pb A s' := by
  have hs : Same s { s' with front := s.front } := ⟨h.k, h.encs, rfl, h.fence⟩
  have := hi.same hs
  exact ⟨this.objs, this.len, this.next, this.origVar, this.encVar, this.dbVars, this.below, this.encFor, this.sound,
    this.encSound, fun t h1 h2 => by
      obtain ⟨m, a, b⟩ := this.ext t h1 h2
      exact ⟨m, a, b.db, b.exact⟩, this.unlimited⟩

theorem SameF.guard {p} {s s' : Slv P C} {B : Asg → Prop} {g : Option Lit} (h : SameF p s s')
    (hn : pb.n0 ≤ s.k.vm.nextVar) (hg : GuardO pb A B s g) : GuardO pb A B s' g := by
  have hs : Same s { s' with front := s.front } := ⟨h.k, h.encs, rfl, h.fence⟩
  have := hg.step hn hs.step
  cases g with
  | none => exact this
  | some g =>
    have this : Guard pb A B { s' with front := s.front } g := this
    exact ⟨this.var, this.sound, fun t h1 h2 h3 => by
      obtain ⟨m, a, b, c⟩ := this.ext t h1 h2 h3
      exact ⟨m, a, ⟨b.db, b.exact⟩, c⟩⟩

/-- Reporting a point. -/
theorem wp_report {n : Nat} {Q : NonDomPoint Assignment × Assignment ⊕ Unit → Slv P C → Prop} (nd : NonDomPoint Assignment)
    (hio : IoInv env n s.io)
    (hQ : ∀ s', SameF nd s s' → IoInv env n s'.io → Q (.inr ()) s')
    (hE : ∀ e s', SameF nd s s' → IoStop env n e s' → E e s') :
    wp env (do
      let ppTerm ← attempt (logNonDominated nd)
      collect nd
      logRoutineEnd
      ofExcept ppTerm
      M.pure (.inr ()) : M P C (NonDomPoint Assignment × Assignment ⊕ Unit)) Q E s := by
  rw [wp_bind]
  refine wp_attempt ?_
  refine wp_logNonDominated nd hio.base (fun hd => (hio.lims hd).pps) ?_ ?_
  · intro s1 hs1 _ _ hio1
    replace hio1 := hio1 hio.lims
    rw [wp_bind]
    unfold collect
    rw [wp_modifyS, wp_bind]
    refine wp_logEvent (n := n) _ ⟨hio1.base, hio1.lims⟩ ?_ ?_
    · intro s2 hs2 _ hio2
      rw [wp_bind, wp_ofExcept_ok, wp_pure]
      refine hQ s2 ⟨?_, ?_, ?_, ?_⟩ hio2
      · rw [hs2.k]; simp only; rw [hs1.k]
      · rw [hs2.encs]; exact hs1.encs
      · rw [hs2.front]; simp only [hs1.front]
      · rw [hs2.fence]; exact hs1.fence
    · intro e s2 hs2 he
      refine hE e s2 ⟨?_, ?_, ?_, ?_⟩ he.1
      · rw [hs2.k]; simp only; rw [hs1.k]
      · rw [hs2.encs]; exact hs1.encs
      · rw [hs2.front]; simp only [hs1.front]
      · rw [hs2.fence]; exact hs1.fence
  · intro e s1 hs1 he
    have hrest : wp env (do
          collect nd
          logRoutineEnd
          ofExcept (.error e)
          M.pure (.inr ()) : M P C (NonDomPoint Assignment × Assignment ⊕ Unit)) Q E s1 := by
      rw [wp_bind]
      unfold collect
      rw [wp_modifyS, wp_bind]
      have hlog : wp env (logRoutineEnd : M P C Unit)
          (fun _ s2 => SameF nd s s2 ∧ IoBase n s2.io)
          (fun e s2 => SameF nd s s2 ∧ IoBase n s2.io ∧ e = .error ∧ LogFail env)
          { s1 with front := s1.front ++ [nd] } := by
        unfold wp logRoutineEnd logEvent
        cases hl : s1.io.logger with
        | none => exact ⟨⟨hs1.k, hs1.encs, by simp [hs1.front], hs1.fence⟩, he.1⟩
        | some l =>
          simp only
          by_cases ht : env.logOk s1.io.tick = true
          · simp only [ht, if_true]
            refine ⟨⟨hs1.k, hs1.encs, by simp [hs1.front], hs1.fence⟩, he.1.1, fun l' hl' => ?_⟩
            simp only [Option.some.injEq] at hl'
            subst hl'
            exact (he.1.2 l hl).snoc (LogEvent.Plain.loggable (by intro _ h; cases h) l)
          · simp only [ht]
            exact ⟨⟨hs1.k, hs1.encs, by simp [hs1.front], hs1.fence⟩, he.1, rfl, s1.io.tick, by simpa using ht⟩
      refine wp_mono hlog ?_ ?_
      · rintro _ s2 ⟨h1, h2⟩
        rw [wp_bind, wp_ofExcept_error]
        refine hE e s2 h1 ⟨h2, ?_⟩
        have := he.2
        cases e <;> simp_all
      · rintro e' s2 ⟨h1, h2, rfl, h4⟩
        exact hE _ s2 h1 ⟨h2, h4⟩
    have := he.2
    cases e with
    | panic => exact this.elim
    | fuel => exact this.elim
    | terminated t => exact hrest
    | error => exact hrest

theorem wp_yieldSolutions {Q : Unit → Slv P C → Prop} {B : Asg → Prop} {g : Option Lit} (wf : pb.WF)
    (orc : OracleOK env) (hfit : pb.Fits) (hio : IoInv env pb.objs.length s.io) (hi : DBInv pb A s)
    (hg : GuardO pb A B s g) (t : Asg) (ht : pb.NonDom t) (n1 : Nat) (hn1 : pb.n0 ≤ n1) (as : List Lit)
    (hdom : s.k.opts.enumeration ≠ .noEnum → DomLits pb s (pb.costs t) as) (fuel : Nat)
    (hblk : s.k.opts.enumeration ≠ .noEnum → BlockOK pb (blkOf s.k) ∧ (∀ t', pb.Sol t' → pb.costs t' = pb.costs t → A t'))
    (hpb : pb.en = s.k.opts.enumeration ∧ pb.blk = blkOf s.k)
    (hQ : ∀ s', YieldDone pb env A B (pb.costs t) g s s' → Q () s')
    (hE : ∀ e s', YieldStop pb env A (pb.costs t) fuel s e s' → E e s') :
    wp env (yieldSolutions fuel (pb.costs t) as (Assignment.ofModel t n1)) Q E s := by
  unfold yieldSolutions
  rw [wp_bind, wp_getS, wp_bind]
  refine wp_dbg (by simp [hio.base.1]) ?_
  rw [wp_bind]
  -- stopping without change to the logical state
  have hquiet : ∀ e s', Same s s' → IoStopQ env pb.objs.length e s' → E e s' := by
    intro e s' h1 h2
    have h3 := h2.1.2
    refine hE e s' ⟨h2.1.1, ?_, ?_, ?_, .inl h1.front, h1.opts, h1.bcg, fun _ => ⟨h1.fence, h1.step.enc, hi.same h1, .inl ⟨h2.2.1, h2.2.2, h1.front⟩⟩⟩
    · rintro rfl; exact h3
    · rintro rfl; exact h3
    · rintro rfl; exact h3.elim
  refine wp_logEvent _ hio (fun s1 h1 _ hio1 => ?_) hquiet
  rw [wp_bind]
  unfold unphaseSolution
  rw [wp_bind, wp_getS]
  have hi1 : DBInv pb A s1 := hi.same h1
  have hpos : 0 < s1.k.vm.nextVar := by have := hi1.next; have := hi1.encVar; omega
  have hmax : s1.k.vm.maxVar = some (s1.k.vm.nextVar - 1) := by
    unfold VarManager.maxVar; rw [if_neg (by omega)]
  have hrest : wp env (do
      let ext ← externalize (pb.costs t)
      loopM (yieldBody (pb.costs t) as) fuel (NonDomPoint.new ext, Assignment.ofModel t n1)) Q E s1 := by
    rw [wp_bind]
    refine wp_externalize rfl hio1 hi1 hfit ht.1 ?_
    -- the loop
    let c := pb.costs t
    let blk := blkOf s.k
    let I : NonDomPoint Assignment × Assignment → Slv P C → Prop := fun st s' =>
      ∃ t' n', st.2 = Assignment.ofModel t' n' ∧ pb.n0 ≤ n' ∧ pb.Sol t' ∧ pb.costs t' = c ∧ st.1.costs = pb.ext t ∧
        st.1.sols.Nodup ∧ (∀ x ∈ st.1.sols, ∃ t, pb.NonDom t ∧ pb.costs t = c ∧ x = Assignment.ofModel t pb.nOrig) ∧
        st.1.sols.Pairwise (fun x y => ∀ cl, pb.blk x = some cl → ∃ t, y = Assignment.ofModel t pb.nOrig ∧
          clauseEval t cl = true) ∧
        Unblocked blk st.1.sols t' ∧ (st.1.sols ≠ [] → enumDone s.k.opts.enumeration st.1.nSols = false) ∧
        DBInv pb (fun t => A t ∧ Unblocked blk st.1.sols t) s' ∧
        GuardO pb (fun t => A t ∧ Unblocked blk st.1.sols t) B s' g ∧
        (s.k.opts.enumeration ≠ .noEnum → DomLits pb s' c as) ∧
        IoInv env pb.objs.length s'.io ∧ Grow s s'
    let μ : NonDomPoint Assignment × Assignment → Slv P C → Nat := fun st _ => 2 ^ pb.nOrig - st.1.sols.length
    have hnd : ∀ t', pb.Sol t' → pb.costs t' = c → pb.NonDom t' := by
      intro t' h1 h2
      refine ⟨h1, fun t'' h3 h4 => ?_⟩
      rw [h2] at h4 ⊢
      exact ht.2 t'' h3 h4
    have hlen : ∀ st s', I st s' → st.1.sols.length ≤ 2 ^ pb.nOrig := by
      rintro st s' ⟨t', n', -, -, -, -, -, h1, h2, -⟩
      exact length_le_of_nodup h1 fun x hx => by
        obtain ⟨t, _, _, h⟩ := h2 x hx
        exact ⟨t, h⟩
    refine wp_loop I μ (2 ^ pb.nOrig) fuel _ _
      (fun st s' _ => Nat.sub_le _ _) ?_ ?_ ?_
    · -- the body
      rintro ⟨nd, sol⟩ s2 ⟨t2, n2, hsol, hn2, ht2, hc2, hext, hndup, hsols, hpw, hunb, hdone, hi2, hg2, hdom2, hio2, hgr2⟩
      simp only at hsol hext hndup hsols hpw hunb hdone hi2 hg2
      subst hsol
      unfold yieldBody
      rw [wp_bind, wp_getS, wp_bind]
      simp only
      refine wp_dbg (by rw [costsOf_ofModel hi2 wf hn2, hc2]; simp [c]) ?_
      have htr : (Assignment.ofModel t2 n2).truncate s2.k.vm.maxOrigVar = Assignment.ofModel t2 pb.nOrig := by
        rw [Assignment.truncate_ofModel _ _ _ (by have := hi2.origVar; have := wf.orig; omega), hi2.origVar]
      rw [htr]
      have hopts2 : s2.k.opts = s.k.opts := hgr2.frame.opts
      have hblk2 : blkOf s2.k = blk := by
        unfold blk blkOf
        rw [hopts2, hgr2.frame.bcg, hi2.objs, ← hi.objs]
      -- in the mode without enumeration this is the first solution
      have hno : s.k.opts.enumeration = .noEnum → nd.sols = [] := by
        intro h
        by_contra h'
        have := hdone h'
        rw [h] at this
        simp [enumDone] at this
      have hnew : ¬ (Assignment.ofModel t2 pb.nOrig) ∈ nd.sols := by
        intro hmem
        have hen : s.k.opts.enumeration ≠ .noEnum := fun h => by rw [hno h] at hmem; simp at hmem
        obtain ⟨cl, h1, _, h2, _⟩ := (hblk hen).1 t2 (hnd t2 ht2 hc2)
        have h3 := hunb _ hmem cl h1
        rw [h2 t2 (AgreeBelow.refl _ _)] at h3
        simp at h3
      have hpt : PointOK pb (nd.addSol (Assignment.ofModel t2 pb.nOrig)) c := by
        refine ⟨⟨t, ht, rfl, hext⟩, by simp [NonDomPoint.addSol], ?_, ?_, ?_, ?_⟩
        · simp only [NonDomPoint.addSol]
          rw [List.nodup_append]
          exact ⟨hndup, by simp, by
            intro a ha b hb
            simp only [List.mem_singleton] at hb
            subst hb
            intro h; subst h; exact hnew ha⟩
        · intro x hx
          simp only [NonDomPoint.addSol, List.mem_append, List.mem_singleton] at hx
          rcases hx with hx | rfl
          · exact hsols x hx
          · exact ⟨t2, hnd t2 ht2 hc2, hc2, rfl⟩
        · rw [hpb.1]
          unfold CountOK
          by_cases h0 : nd.sols = []
          · simp only [NonDomPoint.addSol, h0, List.nil_append, List.length_singleton]
            split <;> first | trivial | omega
          · have hd := hdone h0
            unfold enumDone NonDomPoint.nSols at hd
            simp only [NonDomPoint.addSol, List.length_append, List.length_singleton]
            split
            · next h => rw [h] at hd; simp at hd
            · next h => rw [h] at hd; simp at hd; omega
            · next h => rw [h] at hd; simp at hd; omega
            · trivial
        · simp only [NonDomPoint.addSol]
          rw [List.pairwise_append]
          refine ⟨hpw, by simp, ?_⟩
          intro x hx y hy cl hcl
          simp only [List.mem_singleton] at hy
          rw [hpb.2] at hcl
          exact ⟨t2, hy, hunb x hx cl hcl⟩
      have hpt1 : s.k.opts.enumeration = .noEnum →
          (nd.addSol (Assignment.ofModel t2 pb.nOrig)).sols.length = 1 := by
        intro h
        simp [NonDomPoint.addSol, hno h]
      have hAnoE : s.k.opts.enumeration = .noEnum → DBInv pb A s2 := by
        intro h
        refine hi2.congr fun t _ => ?_
        rw [hno h]
        simp [Unblocked]
      -- stopping with the point in the front
      have hstopP : ∀ e s', SameF (nd.addSol (Assignment.ofModel t2 pb.nOrig)) s2 s' →
          IoStop env pb.objs.length e s' → E e s' := by
        intro e s' h1 h2
        have h3 := h2.2
        have hfr : s'.front = s.front ++ [nd.addSol (Assignment.ofModel t2 pb.nOrig)] := by
          rw [h1.front, hgr2.frame.front]
        refine hE e s' ⟨h2.1, ?_, ?_, ?_, .inr ⟨_, hfr, hpt⟩, by rw [h1.k]; exact hopts2,
          by rw [h1.k]; exact hgr2.frame.bcg, fun h => ⟨by rw [h1.fence]; exact hgr2.frame.fence,
            hgr2.enc.trans (.of_encs h1.encs),
            h1.dbinv (hAnoE h), .inr ⟨_, hfr, hpt, hpt1 h⟩⟩⟩
        · rintro rfl; exact h3
        · rintro rfl; exact h3
        · rintro rfl; exact h3.elim
      rw [wp_bind]
      refine wp_attempt ?_
      refine wp_logSolution hio2 ?_ ?_
      · intro s3 h3 hk3 hio3
        simp only
        rw [hopts2]
        have hi3 := hi2.same h3
        have hg3 := hg2.step hi2.next h3.step
        -- reporting the point with all its solutions
        have hrep : ∀ s4, IoInv env pb.objs.length s4.io → Grow s s4 →
            (∃ A', (∀ t, A' t → A t) ∧ (∀ t, pb.Sol t → A t → ¬ VLe c (pb.costs t) → A' t) ∧ DBInv pb A' s4 ∧
              GuardO pb A' B s4 g) →
            EnumFull pb s.k.opts.enumeration blk (nd.addSol (Assignment.ofModel t2 pb.nOrig)) c →
            (s.k.opts.enumeration = .noEnum → DBInv pb A s4) →
            wp env (do
              let ppTerm ← attempt (logNonDominated (nd.addSol (Assignment.ofModel t2 pb.nOrig)))
              collect (nd.addSol (Assignment.ofModel t2 pb.nOrig))
              logRoutineEnd
              ofExcept ppTerm
              M.pure (.inr ()) : M P C (NonDomPoint Assignment × Assignment ⊕ Unit))
              (LoopPost I μ Q (2 ^ pb.nOrig - nd.sols.length)) E s4 := by
          intro s4 hio4 hgr4 hA4 hfull hno4
          refine wp_report _ hio4 ?_ ?_
          · intro s5 h5 hio5
            refine hQ s5 ⟨hio5, ⟨_, by rw [h5.front, hgr4.frame.front], hpt, hfull⟩,
              by rw [h5.k]; exact hgr4.frame.opts, by rw [h5.k]; exact hgr4.frame.bcg,
              by rw [h5.fence]; exact hgr4.frame.fence, ?_, by rw [h5.k]; exact hgr4.next,
              by rw [h5.k]; exact hgr4.db, ?_⟩
            · exact hgr4.enc.trans (.of_encs h5.encs)
            · obtain ⟨A', a1, a2, a3, a4⟩ := hA4
              exact ⟨A', a1, a2, h5.dbinv a3, h5.guard a3.next a4⟩
          · intro e s5 h5 he
            have h3 := he.2
            have hfr : s5.front = s.front ++ [nd.addSol (Assignment.ofModel t2 pb.nOrig)] := by
              rw [h5.front, hgr4.frame.front]
            refine hE e s5 ⟨he.1, ?_, ?_, ?_, .inr ⟨_, hfr, hpt⟩,
              by rw [h5.k]; exact hgr4.frame.opts, by rw [h5.k]; exact hgr4.frame.bcg, fun h =>
              ⟨by rw [h5.fence]; exact hgr4.frame.fence,
                hgr4.enc.trans (.of_encs h5.encs),
                h5.dbinv (hno4 h), .inr ⟨_, hfr, hpt, hpt1 h⟩⟩⟩
            · rintro rfl; exact h3
            · rintro rfl; exact h3
            · rintro rfl; exact h3.elim
        by_cases hed : enumDone s.k.opts.enumeration (nd.addSol (Assignment.ofModel t2 pb.nOrig)).nSols = true
        · rw [if_pos hed]
          refine hrep s3 hio3 (hgr2.trans h3.step.toGrow) ⟨_, fun t h => h.1, ?_, hi3, hg3⟩ ?_
            (fun h => (hAnoE h).same h3)
          · intro t' ht' hA' hn
            refine ⟨hA', fun x hx cl hcl => ?_⟩
            by_contra hf
            have hen : s.k.opts.enumeration ≠ .noEnum := fun h => by rw [hno h] at hx; simp at hx
            obtain ⟨tx, h1, h2, rfl⟩ := hsols x hx
            obtain ⟨cl', g1, _, _, g4⟩ := (hblk hen).1 tx h1
            have : cl' = cl := by
              have : blk (Assignment.ofModel tx pb.nOrig) = some cl' := g1
              rw [hcl] at this
              simpa using this.symm
            subst this
            have := g4 t' ht' (by simpa using hf)
            rw [h2] at this
            exact hn this
          · refine enumFull_of_done hed ?_
            by_cases h0 : nd.sols = []
            · left; simp [NonDomPoint.addSol, h0]
            · right
              refine ⟨by simp [NonDomPoint.addSol], ?_⟩
              have := hdone h0
              simpa [NonDomPoint.addSol, NonDomPoint.nSols] using this
        · rw [if_neg hed]
          have hed' : enumDone s.k.opts.enumeration (nd.addSol (Assignment.ofModel t2 pb.nOrig)).nSols = false := by
            simpa using hed
          have hen : s.k.opts.enumeration ≠ .noEnum := by
            intro h
            rw [h] at hed'
            simp [enumDone] at hed'
          obtain ⟨hbok, hAall⟩ := hblk hen
          -- stopping without the point
          have hstopN : ∀ e s', s'.front = s.front → s'.k.opts = s.k.opts → s'.k.bcg = s.k.bcg →
              IoStop env pb.objs.length e s' → E e s' := by
            intro e s' h1 h2 h2' h3
            have h4 := h3.2
            refine hE e s' ⟨h3.1, ?_, ?_, ?_, .inl h1, h2, h2', fun h => absurd h hen⟩
            · rintro rfl; exact h4
            · rintro rfl; exact h4
            · rintro rfl; exact h4.elim
          have hfr3 : s3.front = s.front := by rw [h3.front, hgr2.frame.front]
          rw [wp_bind]
          refine wp_checkTermination hio3 ?_ ?_
          · intro s4 h4 hk4 hio4 _
            have hi4 := hi3.same h4
            have hg4 := hg3.step hi3.next h4.step
            have hgr4 := (hgr2.trans h3.step.toGrow).trans h4.step.toGrow
            -- the blocking clause
            obtain ⟨cl, hcl1, hcl2, hcl3, hcl4⟩ := hbok t2 (hnd t2 ht2 hc2)
            rw [wp_bind]
            have hblkwp : ∀ (R : Unit → Slv P C → Prop), (∀ s5, Added cl s4 s5 → R () s5) →
                wp env (blockSolution (Assignment.ofModel t2 pb.nOrig)) R E s4 := by
              intro R hR
              have ho4 : s4.k.opts = s.k.opts := hgr4.frame.opts
              have hb4 : s4.k.bcg = s.k.bcg := hgr4.frame.bcg
              have hj4 : s4.k.objs = s.k.objs := by rw [hi4.objs, hi.objs]
              unfold blockSolution
              rw [wp_bind, wp_getS, ho4]
              unfold blkOf at hcl1
              revert hcl1
              cases hen' : s.k.opts.enumeration with
              | noEnum => exact absurd hen' hen
              | solutions l =>
                simp only [Option.some.injEq]
                intro hcl1
                rw [hb4, hcl1]
                exact wp_addClause' _ hR
              | pmcss l =>
                simp only
                intro hcl1
                rw [wp_bind, hj4, hcl1, wp_unwrap_some]
                exact wp_addClause' _ hR
            refine hblkwp _ fun s5 h5 => ?_
            have hi5 := hi4.addClause (B := fun t => clauseEval t cl = true) h5 (hcl2.mono hi4.next)
              (fun m _ h => h) (fun t h1 h2 h3 => by
                obtain ⟨m, a1, a2⟩ := hi4.ext t h1 h2
                exact ⟨m, a1, a2, by rw [← clauseEval_agree a1 hcl2]; exact h3⟩)
            have hg5 := hg4.added (B' := fun t => clauseEval t cl = true) h5 hcl2 (fun _ h => h)
            have heq : ∀ t, ((A t ∧ Unblocked blk nd.sols t) ∧ clauseEval t cl = true) ↔
                (A t ∧ Unblocked blk (nd.addSol (Assignment.ofModel t2 pb.nOrig)).sols t) := by
              intro t
              unfold Unblocked NonDomPoint.addSol
              constructor
              · rintro ⟨⟨h1, h2⟩, h3⟩
                refine ⟨h1, fun x hx cl' hcl' => ?_⟩
                simp only [List.mem_append, List.mem_singleton] at hx
                rcases hx with hx | rfl
                · exact h2 x hx cl' hcl'
                · have : some cl' = some cl := by rw [← hcl', ← hcl1]
                  simp only [Option.some.injEq] at this
                  subst this; exact h3
              · rintro ⟨h1, h2⟩
                exact ⟨⟨h1, fun x hx => h2 x (by simp [hx])⟩, h2 _ (by simp) cl hcl1⟩
            replace hi5 := hi5.congr (fun t _ => heq t)
            replace hg5 := hg5.congr (A' := fun t => A t ∧ Unblocked blk (nd.addSol (Assignment.ofModel t2 pb.nOrig)).sols t)
              (fun t _ h => (heq t).2 h)
            have hgr5 := hgr4.trans h5.grow
            have hio5 : IoInv env pb.objs.length s5.io := by rw [h5.io]; exact hio4
            have hdom5 : DomLits pb s5 c as := (((hdom2 hen).same h3).same h4).added h5
            have hAblk : ∀ t, pb.Sol t → A t → ¬ VLe c (pb.costs t) →
                A t ∧ Unblocked blk (nd.addSol (Assignment.ofModel t2 pb.nOrig)).sols t := by
              intro t' ht' hA' hn
              refine ⟨hA', fun x hx cl hcl => ?_⟩
              by_contra hf
              obtain ⟨tx, h1, h2, rfl⟩ := hpt.sols x hx
              obtain ⟨cl', g1, _, _, g4⟩ := hbok tx h1
              have : cl' = cl := by
                have : blk (Assignment.ofModel tx pb.nOrig) = some cl' := g1
                rw [hcl] at this
                simpa using this.symm
              subst this
              have := g4 t' ht' (by simpa using hf)
              rw [h2] at this
              exact hn this
            rw [wp_bind]
            refine wp_solveAssumps orc as hi5.unlimited hio5 ?_ ?_ ?_
            · -- another solution
              intro m s6 h6 hm6 hio6 hmdb hmas
              rw [if_neg (by simp), wp_bind]
              refine wp_checkTermination hio6 ?_ ?_
              · intro s7 h7 hk7 hio7 _
                have hi7 := (hi5.same h6).same h7
                have hpos7 : 0 < s7.k.vm.nextVar := by have := hi7.next; have := hi7.encVar; omega
                rw [wp_bind]
                refine wp_oracleSolution (m := m) (by rw [hk7]; exact hm6) hpos7 ?_
                rw [wp_pure]
                have hmS := hi5.sound m hmdb
                have hmle := hdom5.sound m hmdb hmas
                have hmc : pb.costs m = c := ht.2 m hmS.1 hmle
                have hIn : I (nd.addSol (Assignment.ofModel t2 pb.nOrig), Assignment.ofModel m s7.k.vm.nextVar) s7 := by
                  refine ⟨m, s7.k.vm.nextVar, rfl, hi7.next, hmS.1, hmc, hext, hpt.nodup, hpt.sols, hpt.unblocked, hmS.2.2,
                    fun _ => hed', hi7, (hg5.step hi5.next h6.step).step (hi5.same h6).next h7.step,
                    fun _ => (hdom5.same h6).same h7, hio7,
                    (hgr5.trans h6.step.toGrow).trans h7.step.toGrow⟩
                refine ⟨hIn, ?_⟩
                have := hlen _ _ hIn
                simp only [NonDomPoint.addSol, List.length_append, List.length_singleton, μ] at this ⊢
                omega
              · intro e s7 h7 he
                exact hstopN e s7 (by rw [h7.front, h6.front, hgr5.frame.front]) (by rw [h7.opts, h6.opts, hgr5.frame.opts])
                  (by rw [h7.bcg, h6.bcg, hgr5.frame.bcg]) he.1
            · -- no further solution
              intro core s6 h6 _ hio6 hcore himp
              rw [if_pos rfl]
              refine hrep s6 hio6 (hgr5.trans h6.step.toGrow) ⟨_, fun t h => h.1, hAblk, hi5.same h6,
                hg5.step hi5.next h6.step⟩ ?_ (fun h => absurd h hen)
              refine enumFull_of_complete hed' ?_
              intro t' ht' hc'
              by_contra hcon
              have hub : Unblocked blk (nd.addSol (Assignment.ofModel t2 pb.nOrig)).sols t' := by
                intro x hx cl hcl
                by_contra hf
                exact hcon ⟨x, hx, cl, hcl, by simpa using hf⟩
              obtain ⟨m, a1, a2⟩ := hi5.ext t' ht' ⟨hAall t' ht' hc', hub⟩
              have hmc : pb.costs m = c := by rw [← Pb.costs_agree wf a1]; exact hc'
              have h1 := himp m a2.db
              rw [core_false hcore (hdom5.exact m a2 (by rw [hmc]; exact VLe.refl _))] at h1
              simp at h1
            · intro e s6 h6 he
              exact hstopN e s6 (by rw [h6.front, hgr5.frame.front]) (by rw [h6.opts, hgr5.frame.opts])
                (by rw [h6.bcg, hgr5.frame.bcg]) he.1
          · intro e s4 h4 he
            exact hstopN e s4 (by rw [h4.front]; exact hfr3) (by rw [h4.opts, h3.opts]; exact hopts2)
              (by rw [h4.bcg, h3.bcg]; exact hgr2.frame.bcg) he.1
      · -- the limit on solutions
        intro e s3 h3 he hpp
        have hrest : wp env (do
            let ndTerm ← attempt (logNonDominated (nd.addSol (Assignment.ofModel t2 pb.nOrig)))
            collect (nd.addSol (Assignment.ofModel t2 pb.nOrig))
            ofExcept ndTerm
            stop e : M P C (NonDomPoint Assignment × Assignment ⊕ Unit)) (LoopPost I μ Q (2 ^ pb.nOrig - nd.sols.length)) E s3 := by
          rw [wp_bind]
          refine wp_attempt ?_
          refine wp_logNonDominated _ he.1 hpp ?_ ?_
          · intro s4 h4 _ hn4 _
            rw [wp_bind]
            unfold collect
            rw [wp_modifyS, wp_bind, wp_ofExcept_ok, wp_stop]
            refine hstopP e _ ⟨?_, ?_, ?_, ?_⟩ ⟨hn4, ?_⟩
            · simp only; rw [h4.k, h3.k]
            · simp only; rw [h4.encs, h3.encs]
            · simp only; rw [h4.front, h3.front]
            · simp only; rw [h4.fence, h3.fence]
            · have := he.2; cases e <;> simp_all
          · intro e' s4 h4 he'
            have hr2 : wp env (do
                collect (nd.addSol (Assignment.ofModel t2 pb.nOrig))
                ofExcept (.error e')
                stop e : M P C (NonDomPoint Assignment × Assignment ⊕ Unit)) (LoopPost I μ Q (2 ^ pb.nOrig - nd.sols.length)) E s4 := by
              rw [wp_bind]
              unfold collect
              rw [wp_modifyS, wp_bind, wp_ofExcept_error]
              refine hstopP e' _ ⟨?_, ?_, ?_, ?_⟩ ⟨he'.1, ?_⟩
              · simp only; rw [h4.k, h3.k]
              · simp only; rw [h4.encs, h3.encs]
              · simp only; rw [h4.front, h3.front]
              · simp only; rw [h4.fence, h3.fence]
              · have := he'.2; cases e' <;> simp_all
            have := he'.2
            cases e' with
            | panic => exact this.elim
            | fuel => exact this.elim
            | terminated t => exact hr2
            | error => exact hr2
        have := he.2
        cases e with
        | panic => exact this.elim
        | fuel => exact this.elim
        | terminated t => exact hrest
        | error => exact hrest
    · -- fuel
      rintro ⟨nd, sol⟩ s2 ⟨t2, n2, -, -, -, -, -, -, -, -, -, hdone, hi2, -, -, hio2, hgr2⟩ hf
      refine hE _ s2 ⟨hio2.base, by simp, by simp, fun _ => hf, .inl hgr2.frame.front, hgr2.frame.opts,
        hgr2.frame.bcg, fun h => ⟨hgr2.frame.fence, hgr2.enc, ?_, .inl ⟨by simp, by simp, hgr2.frame.front⟩⟩⟩
      refine hi2.congr fun t _ => ?_
      have h0 : nd.sols = [] := by
        by_contra h'
        have := hdone h'
        rw [h] at this
        simp [enumDone] at this
      simp [h0, Unblocked]
    · refine ⟨t, n1, rfl, hn1, ht.1, rfl, rfl, by simp [NonDomPoint.new], by simp [NonDomPoint.new],
        by simp [NonDomPoint.new], by simp [NonDomPoint.new, Unblocked], by simp [NonDomPoint.new], ?_, ?_, ?_, hio1, h1.step.toGrow⟩
      · exact hi1.congr fun t _ => by simp [NonDomPoint.new, Unblocked]
      · exact (hg.step hi.next h1.step).congr fun t _ h => h.1
      · exact fun h => (hdom h).same h1
  split
  · rw [wp_bind, hmax, wp_unwrap_some, wp_pure]; exact hrest
  · rw [wp_pure]; exact hrest

end Scuttle
