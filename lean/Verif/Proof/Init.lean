import Verif.SpecRun
import Verif.Proof.LBProof
import Verif.Proof.BOSProof
import Verif.Props.Blocking

/-!
# Instances and freshly built solvers
-/

set_option linter.unusedSectionVars false

namespace Scuttle

open Spec

/-! ## From instances to problems of the solver -/

/-- The problem that a solver for the instance works on. -/
def Instance.pb (inst : Instance) (opts : KernelOptions) (bcg : Assignment → Clause) : Pb where
  F := inst.clauses
  objs := inst.objs
  n0 := inst.vm.maxEncVar + 1
  nOrig := inst.vm.maxOrigVar + 1
  en := opts.enumeration
  blk := fun sol =>
    match opts.enumeration with
    | .solutions _ => some (bcg sol)
    | .pmcss _ => blockParetoMcs inst.objs sol
    | .noEnum => none

variable {inst : Instance} {opts : KernelOptions} {bcg : Assignment → Clause}

theorem mem_objLits (o : Objective) (l : Lit) : l ∈ objLits o ↔ ∃ p ∈ o.iter, p.1 = l := by
  cases o with
  | weighted off lits i b => simp [objLits, Objective.iter]
  | unweighted off w lits i b => simp [objLits, Objective.iter]
  | constant off i b => simp [objLits, Objective.iter]

theorem pb_wf (h : WellFormed inst) : (inst.pb opts bcg).WF := by
  refine ⟨fun c hc l hl => ?_, fun o ho p hp => ?_, ?_⟩
  · exact Nat.lt_succ_of_le (h.clauses c hc l hl)
  · exact Nat.lt_succ_of_le (h.objs o ho p.1 ((mem_objLits o p.1).2 ⟨p, hp, rfl⟩))
  · exact Nat.succ_le_succ h.orig

theorem objValue_eq (o : Objective) (t : Asg) : objValue o t = extVal o t := by
  cases o with
  | weighted off lits i b => simp [objValue, extVal, icost, Objective.iter, Objective.unitWeight, Objective.offset]; ring
  | unweighted off w lits i b =>
    simp [objValue, extVal, icost, Objective.iter, Objective.unitWeight, Objective.offset]; ring
  | constant off i b =>
    simp [objValue, extVal, icost, Objective.iter, Objective.unitWeight, Objective.offset, linear]

theorem costs_eq (t : Asg) : (problem inst).costs t = (inst.pb opts bcg).ext t := by
  unfold Problem.costs problem Pb.ext Instance.pb
  simp only [List.map_map]
  exact List.map_congr_left fun o _ => by simp [objValue_eq]

theorem feasible_iff (t : Asg) : (problem inst).Feasible t ↔ (inst.pb opts bcg).Sol t := by
  unfold Problem.Feasible problem Pb.Sol Instance.pb cnfEval clauseEval
  simp [List.all_eq_true, List.any_eq_true, Lit.eval_iff]

theorem unitWeight_pos (h : PosUnit inst) {o : Objective} (ho : o ∈ inst.objs) : 0 < o.unitWeight := by
  cases o with
  | weighted off lits i b => simp [Objective.unitWeight]
  | unweighted off w lits i b => exact h off w lits i b ho
  | constant off i b => simp [Objective.unitWeight]

theorem extVal_le_iff {o : Objective} (h : 0 < o.unitWeight) (s t : Asg) :
    extVal o s ≤ extVal o t ↔ icost o s ≤ icost o t := by
  unfold extVal
  rw [Int.add_le_add_iff_right, Int.ofNat_le]
  exact Nat.mul_le_mul_right_iff h

theorem weaklyDominates_iff (h : PosUnit inst) (s t : Asg) :
    WeaklyDominates ((problem inst).costs s) ((problem inst).costs t) ↔
      VLe ((inst.pb opts bcg).costs s) ((inst.pb opts bcg).costs t) := by
  rw [costs_eq (opts := opts) (bcg := bcg), costs_eq (opts := opts) (bcg := bcg)]
  have h' : ∀ o ∈ inst.objs, 0 < o.unitWeight := fun o ho => unitWeight_pos h ho
  unfold WeaklyDominates VLe Pb.ext Pb.costs Instance.pb
  simp only
  clear h
  revert h'
  induction inst.objs with
  | nil => simp
  | cons o os ih =>
    intro h'
    simp only [List.map_cons, List.forall₂_cons]
    have := ih fun o ho => h' o (by simp [ho])
    exact and_congr (extVal_le_iff (h' o (by simp)) s t) this

theorem costs_eq_iff (h : PosUnit inst) (s t : Asg) :
    (problem inst).costs s = (problem inst).costs t ↔ (inst.pb opts bcg).costs s = (inst.pb opts bcg).costs t := by
  have key : ∀ a b : Asg, (problem inst).costs a = (problem inst).costs b ↔
      WeaklyDominates ((problem inst).costs a) ((problem inst).costs b) ∧
      WeaklyDominates ((problem inst).costs b) ((problem inst).costs a) := by
    intro a b
    constructor
    · intro h; rw [h]
      have : ∀ l : List Int, List.Forall₂ (· ≤ ·) l l := fun l => List.forall₂_same.2 fun _ _ => Int.le_refl _
      exact ⟨this _, this _⟩
    · rintro ⟨h1, h2⟩
      unfold WeaklyDominates at h1 h2
      generalize (problem inst).costs a = x at h1 h2
      generalize (problem inst).costs b = y at h1 h2
      induction h1 with
      | nil => rfl
      | cons h _ ih => cases h2 with | cons h3 h4 => rw [Int.le_antisymm h h3, ih h4]
  rw [key, weaklyDominates_iff (opts := opts) (bcg := bcg) h, weaklyDominates_iff (opts := opts) (bcg := bcg) h]
  constructor
  · rintro ⟨h1, h2⟩; exact h1.antisymm h2
  · intro h; rw [h]; exact ⟨VLe.refl _, VLe.refl _⟩

theorem paretoOptimal_iff (h : PosUnit inst) (t : Asg) :
    (problem inst).ParetoOptimal t ↔ (inst.pb opts bcg).NonDom t := by
  unfold Problem.ParetoOptimal Pb.NonDom Dominates
  rw [feasible_iff (opts := opts) (bcg := bcg)]
  refine and_congr_right fun _ => ?_
  refine forall_congr' fun t' => ?_
  rw [feasible_iff (opts := opts) (bcg := bcg), weaklyDominates_iff (opts := opts) (bcg := bcg) h,
    Ne, costs_eq_iff (opts := opts) (bcg := bcg) h]
  refine imp_congr_right fun _ => ?_
  tauto

theorem pb_fits (h : FitsIsize inst) : (inst.pb opts bcg).Fits := by
  intro t ht o ho
  have := h t ((feasible_iff t).2 ht) o ho
  rw [objValue_eq] at this
  unfold extVal at this
  unfold isizeMax
  have h2 : ((icost o t * o.unitWeight : Nat) : Int) ≤ 2 ^ 63 - 1 := by
    have e : ((icost o t * o.unitWeight : Nat) : Int) + o.offset - o.offset = (icost o t * o.unitWeight : Nat) := by ring
    rw [← e]; exact this
  norm_num at h2 ⊢
  omega

theorem agreeBelow_orig (s t : Asg) : AgreeBelow (inst.pb opts bcg).nOrig s t ↔ SameOrig inst s t := by
  unfold AgreeBelow SameOrig Instance.pb
  simp only [Nat.lt_succ_iff]

theorem shows_iff (x : Assignment) (t : Asg) : Shows inst x t ↔ x = Assignment.ofModel t (inst.vm.maxOrigVar + 1) := by
  unfold Shows Restricts
  constructor
  · rintro ⟨h1, h2⟩
    apply List.ext_getElem?
    intro v
    by_cases hv : v < inst.vm.maxOrigVar + 1
    · rw [h2 v hv]; simp [Assignment.ofModel, hv]
    · rw [List.getElem?_eq_none (by omega), List.getElem?_eq_none (by simp; omega)]
  · rintro rfl
    refine ⟨by simp, fun v hv => by simp [Assignment.ofModel, hv]⟩

/-! ## Blocking clauses -/

theorem ofBool_inj {a b : Bool} (h : TV.ofBool a = TV.ofBool b) : a = b := by cases a <;> cases b <;> simp_all [TV.ofBool]

theorem defaultBlocking_eval (t t' : Asg) (n : Nat) :
    clauseEval t' (defaultBlockingClause (Assignment.ofModel t n)) = false ↔ AgreeBelow n t t' := by
  unfold clauseEval defaultBlockingClause
  rw [List.any_eq_false]
  constructor
  · intro h v hv
    have := h (⟨v, !t v⟩ : Lit).not (by
      refine List.mem_map.2 ⟨_, ?_, rfl⟩
      rw [mem_toLits]
      simp [Assignment.ofModel, hv])
    simp [Lit.eval, Lit.not] at this
    exact this.symm
  · rintro h l hl
    obtain ⟨l', hl', rfl⟩ := List.mem_map.1 hl
    rw [mem_toLits] at hl'
    have hv : l'.var < n := by
      by_contra hv
      rw [List.getElem?_eq_none (by simp; omega)] at hl'
      simp at hl'
    simp only [Assignment.ofModel, List.getElem?_map, List.getElem?_range hv, Option.map_some, Option.some.injEq] at hl'
    have h1 := ofBool_inj hl'
    simp [Lit.eval, ← h _ hv, h1, Lit.not]

theorem defaultBlocking_vars (t : Asg) (n : Nat) : LitsBelow n (defaultBlockingClause (Assignment.ofModel t n)) := by
  intro l hl
  obtain ⟨l', hl', rfl⟩ := List.mem_map.1 hl
  rw [mem_toLits] at hl'
  by_contra hv
  rw [List.getElem?_eq_none (by simpa using hv)] at hl'
  simp at hl'

/-- The default blocking clause is fine if the original variables determine the costs. -/
theorem blockOK_default (hwf : WellFormed inst) (hpos : PosUnit inst) (hdet : OrigDetermines inst) {l : Option Nat}
    (hen : opts.enumeration = .solutions l) :
    BlockOK (inst.pb opts defaultBlockingClause) (inst.pb opts defaultBlockingClause).blk := by
  intro t ht
  refine ⟨defaultBlockingClause (Assignment.ofModel t (inst.vm.maxOrigVar + 1)), ?_, ?_, ?_, ?_⟩
  · simp only [Instance.pb, hen]
  · exact (defaultBlocking_vars t _).mono (Nat.succ_le_succ hwf.orig)
  · intro t' h
    exact (defaultBlocking_eval t t' _).2 h
  · intro t' ht' h
    rw [defaultBlocking_eval] at h
    exact (weaklyDominates_iff hpos t t').1 (hdet t t' ((paretoOptimal_iff hpos t).2 ht) ((feasible_iff t').2 ht')
      ((agreeBelow_orig (opts := opts) (bcg := defaultBlockingClause) t t').1 h))

theorem mcs_eval (horig : ObjsOrig inst) (t t' : Asg) :
    clauseEval t' (mcsLits inst.objs (Assignment.ofModel t (inst.vm.maxOrigVar + 1))) = false ↔
      ∀ o ∈ inst.objs, ∀ l ∈ objLits o, l.eval t = true → l.eval t' = true := by
  unfold clauseEval
  rw [List.any_eq_false]
  constructor
  · intro h o ho l hl hlt
    have := h l.not ((mem_mcsLits _ _ _).2 ⟨?_, o, ho, ?_⟩)
    · simpa using this
    · rw [Lit.not_not, Assignment.litValue_ofModel _ _ _ (Nat.lt_succ_of_le (horig o ho l hl)), hlt]; rfl
    · rw [Lit.not_not, List.mem_map]
      obtain ⟨p, hp, rfl⟩ := (mem_objLits o l).1 hl
      exact ⟨p, hp, rfl⟩
  · intro h l hl
    rw [mem_mcsLits] at hl
    obtain ⟨hv, o, ho, hm⟩ := hl
    rw [List.mem_map] at hm
    obtain ⟨p, hp, hpl⟩ := hm
    have hmem : l.not ∈ objLits o := (mem_objLits o _).2 ⟨p, hp, hpl⟩
    rw [Assignment.litValue_ofModel _ _ _ (Nat.lt_succ_of_le (horig o ho _ hmem))] at hv
    have : l.not.eval t = true := by
      cases hx : l.not.eval t with
      | true => rfl
      | false => rw [hx] at hv; simp [TV.ofBool] at hv
    simpa using h o ho _ hmem this

theorem linear_le_of {l : List (Lit × Nat)} {s t : Asg} (h : ∀ p ∈ l, p.1.eval s = true → p.1.eval t = true) :
    linear s l ≤ linear t l := by
  induction l with
  | nil => simp [linear]
  | cons p l ih =>
    obtain ⟨a, w⟩ := p
    have h1 := ih fun p hp => h p (by simp [hp])
    have h2 := h (a, w) (by simp)
    simp only [Lit.eval_iff] at h2
    simp only [linear]
    by_cases hs : LitTrue s a
    · rw [if_pos hs, if_pos (h2 hs)]; omega
    · rw [if_neg hs]; split <;> omega

theorem clauseEval_eraseDups (t : Asg) (c : Clause) : clauseEval t c.eraseDups = clauseEval t c := by
  unfold clauseEval
  rw [Bool.eq_iff_iff, List.any_eq_true, List.any_eq_true]
  simp [List.mem_eraseDups]

theorem blockParetoMcs_some (objs : List Objective) (sol : Assignment) :
    blockParetoMcs objs sol = some (mcsLits objs sol).eraseDups := by
  unfold blockParetoMcs normalizeClause
  rw [if_neg]
  simp only [List.any_eq_true, List.contains_iff_mem, not_exists, not_and]
  intro l hl hl'
  rw [mem_mcsLits] at hl hl'
  have := litValue_not_tt sol l.not hl.1
  rw [Lit.not_not] at this hl'
  exact this hl'.1

/-- Blocking a Pareto-MCS is fine if all objective literals are original variables. -/
theorem blockOK_pmcs (hwf : WellFormed inst) (horig : ObjsOrig inst) {l : Option Nat}
    (hen : opts.enumeration = .pmcss l) : BlockOK (inst.pb opts bcg) (inst.pb opts bcg).blk := by
  intro t ht
  refine ⟨(mcsLits inst.objs (Assignment.ofModel t (inst.vm.maxOrigVar + 1))).eraseDups, ?_, ?_, ?_, ?_⟩
  · simp only [Instance.pb, hen]
    exact blockParetoMcs_some _ _
  · intro x hx
    rw [List.mem_eraseDups, mem_mcsLits] at hx
    obtain ⟨-, o, ho, hm⟩ := hx
    rw [List.mem_map] at hm
    obtain ⟨p, hp, hpl⟩ := hm
    have := hwf.objs o ho _ ((mem_objLits o x.not).2 ⟨p, hp, hpl⟩)
    exact Nat.lt_succ_of_le this
  · intro t' h
    rw [clauseEval_eraseDups, mcs_eval horig]
    intro o ho l hl hlt
    rw [← Lit.eval_agree h (Nat.lt_succ_of_le (horig o ho l hl))]
    exact hlt
  · intro t' ht' h
    rw [clauseEval_eraseDups, mcs_eval horig] at h
    unfold VLe Pb.costs
    rw [List.forall₂_map_left_iff, List.forall₂_map_right_iff, List.forall₂_same]
    intro o ho
    exact linear_le_of fun p hp => h o ho p.1 ((mem_objLits o _).2 ⟨p, hp, rfl⟩)

/-! ## Freshly built solvers -/

variable {P C : Type} [UbEnc P] [UbEnc C] [LawfulUbEnc P] [LawfulUbEnc C]

/-- What is needed of the encoding of an objective. -/
structure EncInit (o : Objective) (n : Nat) (r : ObjEnc P C × Nat) : Prop where
  next : n ≤ r.2
  below : r.1.Below r.2
  offset : r.1.offset = 0
  const : r.1.isConstant = true → o.iter = []
  top : r.1.top = maxCost o
  sound : ∀ m, r.1.Sound o m
  exact : ∀ m, ∃ m', AgreeBelow n m m' ∧ r.1.Exact o m'

theorem initEnc_spec (reserve : Bool) (o : Objective) (n : Nat) (ho : ∀ p ∈ o.iter, p.1.var < n) :
    EncInit o n (initEnc (P := P) (C := C) reserve o n) := by
  cases o with
  | weighted off lits i b =>
    have hb := LawfulUbEnc.below_ofLits (E := P) lits n ho
    unfold initEnc ObjEnc.newWeighted
    cases reserve with
    | false =>
      refine ⟨Nat.le_refl _, hb, rfl, by simp [ObjEnc.isConstant], ?_, fun m => ⟨LawfulUbEnc.sound_ofLits _ _, ?_⟩,
        fun m => ⟨m, AgreeBelow.refl _ _, LawfulUbEnc.exact_ofLits _ _, ?_⟩⟩
      · simp [ObjEnc.top, LawfulUbEnc.maxVal_ofLits, maxCost, Objective.iter]
      · simp [icost, Objective.iter, LawfulUbEnc.val_ofLits]
      · simp [icost, Objective.iter, LawfulUbEnc.val_ofLits]
    | true =>
      refine ⟨LawfulUbEnc.reserve_next _ _ hb, LawfulUbEnc.reserve_below _ _ hb, rfl, by simp [ObjEnc.isConstant], ?_,
        fun m => ⟨LawfulUbEnc.reserve_sound _ _ _ (LawfulUbEnc.sound_ofLits _ _), ?_⟩, fun m => ?_⟩
      · simp [ObjEnc.top, LawfulUbEnc.reserve_maxVal, LawfulUbEnc.maxVal_ofLits, maxCost, Objective.iter]
      · simp [icost, Objective.iter, LawfulUbEnc.reserve_val, LawfulUbEnc.val_ofLits]
      · obtain ⟨m', h1, h2⟩ := LawfulUbEnc.reserve_exact _ n m hb (LawfulUbEnc.exact_ofLits (E := P) lits m)
        exact ⟨m', h1, h2, by simp [icost, Objective.iter, LawfulUbEnc.reserve_val, LawfulUbEnc.val_ofLits]⟩
  | unweighted off w lits i b =>
    have hb := LawfulUbEnc.below_ofLits (E := C) (lits.map fun l => (l, 1)) n ho
    unfold initEnc ObjEnc.newUnweighted
    cases reserve with
    | false =>
      refine ⟨Nat.le_refl _, hb, rfl, by simp [ObjEnc.isConstant], ?_, fun m => ⟨LawfulUbEnc.sound_ofLits _ _, ?_⟩,
        fun m => ⟨m, AgreeBelow.refl _ _, LawfulUbEnc.exact_ofLits _ _, ?_⟩⟩
      · simp [ObjEnc.top, LawfulUbEnc.maxVal_ofLits, maxCost, Objective.iter]
      · simp [icost, Objective.iter, LawfulUbEnc.val_ofLits]
      · simp [icost, Objective.iter, LawfulUbEnc.val_ofLits]
    | true =>
      refine ⟨LawfulUbEnc.reserve_next _ _ hb, LawfulUbEnc.reserve_below _ _ hb, rfl, by simp [ObjEnc.isConstant], ?_,
        fun m => ⟨LawfulUbEnc.reserve_sound _ _ _ (LawfulUbEnc.sound_ofLits _ _), ?_⟩, fun m => ?_⟩
      · simp [ObjEnc.top, LawfulUbEnc.reserve_maxVal, LawfulUbEnc.maxVal_ofLits, maxCost, Objective.iter]
      · simp [icost, Objective.iter, LawfulUbEnc.reserve_val, LawfulUbEnc.val_ofLits]
      · obtain ⟨m', h1, h2⟩ := LawfulUbEnc.reserve_exact _ n m hb
          (LawfulUbEnc.exact_ofLits (E := C) (lits.map fun l => (l, 1)) m)
        exact ⟨m', h1, h2, by simp [icost, Objective.iter, LawfulUbEnc.reserve_val, LawfulUbEnc.val_ofLits]⟩
  | constant off i b =>
    exact ⟨Nat.le_refl _, trivial, rfl, fun _ => rfl, by simp [ObjEnc.top, initEnc, maxCost, Objective.iter], fun _ => trivial,
      fun m => ⟨m, AgreeBelow.refl _ _, trivial⟩⟩

/-- What is needed of the encodings of all objectives. -/
structure EncsInit (os : List Objective) (n : Nat) (r : List (ObjEnc P C) × Nat) : Prop where
  next : n ≤ r.2
  len : r.1.length = os.length
  tops : r.1.map ObjEnc.top = os.map maxCost
  each : ∀ (i : Nat) (e : ObjEnc P C) (o : Objective), r.1[i]? = some e → os[i]? = some o →
    e.Below r.2 ∧ e.offset = 0 ∧ (e.isConstant = true → o.iter = []) ∧ ∀ m, e.Sound o m
  exact : ∀ m, ∃ m', AgreeBelow n m m' ∧ ∀ (i : Nat) (e : ObjEnc P C) (o : Objective), r.1[i]? = some e →
    os[i]? = some o → e.Exact o m'

theorem initEncs_spec (reserve : Bool) (os : List Objective) (n : Nat) (ho : ∀ o ∈ os, ∀ p ∈ o.iter, p.1.var < n) :
    EncsInit os n (initEncs (P := P) (C := C) reserve os n) := by
  induction os generalizing n with
  | nil => exact ⟨Nat.le_refl _, rfl, rfl, by simp, fun m => ⟨m, AgreeBelow.refl _ _, by simp⟩⟩
  | cons o os ih =>
    have h1 := initEnc_spec (P := P) (C := C) reserve o n (ho o (by simp))
    have h2 := ih (initEnc (P := P) (C := C) reserve o n).2
      (fun o' ho' p hp => Nat.lt_of_lt_of_le (ho o' (by simp [ho']) p hp) h1.next)
    simp only [initEncs]
    refine ⟨Nat.le_trans h1.next h2.next, by simp [h2.len], by simp [h2.tops, h1.top], ?_, ?_⟩
    · intro i e o' he ho'
      cases i with
      | zero =>
        simp only [List.getElem?_cons_zero, Option.some.injEq] at he ho'
        subst he ho'
        exact ⟨ObjEnc.below_mono h1.below h2.next, h1.offset, h1.const, h1.sound⟩
      | succ i =>
        simp only [List.getElem?_cons_succ] at he ho'
        exact h2.each i e o' he ho'
    · intro m
      obtain ⟨m1, a1, b1⟩ := h1.exact m
      obtain ⟨m2, a2, b2⟩ := h2.exact m1
      refine ⟨m2, a1.trans (a2.mono h1.next), ?_⟩
      intro i e o' he ho'
      cases i with
      | zero =>
        simp only [List.getElem?_cons_zero, Option.some.injEq] at he ho'
        subst he ho'
        exact ObjEnc.exact_agree h1.below a2 (fun p hp => Nat.lt_of_lt_of_le (ho _ (by simp) p hp) h1.next) b1
      | succ i =>
        simp only [List.getElem?_cons_succ] at he ho'
        exact b2 i e o' he ho'

theorem initEncs_vals (reserve : Bool) (os : List Objective) (n i : Nat) (e : ObjEnc P C) (o : Objective)
    (he : (initEncs reserve os n).1[i]? = some e) (ho : os[i]? = some o) (hc : e.isConstant = false) (m : Asg) :
    e.value m = icost o m := by
  induction os generalizing n i with
  | nil => simp at ho
  | cons o' os ih =>
    cases i with
    | succ i =>
      simp only [initEncs, List.getElem?_cons_succ] at he ho
      exact ih _ i he ho
    | zero =>
      simp only [initEncs, List.getElem?_cons_zero, Option.some.injEq] at he ho
      subst he ho
      cases o' <;> cases reserve <;>
        simp [initEnc, ObjEnc.newWeighted, ObjEnc.newUnweighted, ObjEnc.value, icost, Objective.iter,
          LawfulUbEnc.reserve_val, LawfulUbEnc.val_ofLits, ObjEnc.isConstant] at hc ⊢

/-- `s` is a freshly built solver for the instance, possibly with a logger attached. -/
def Fresh (inst : Instance) (bcg : Assignment → Clause) (opts : KernelOptions) (s : Slv P C) : Prop :=
  ∃ s0 lg, Slv.new inst bcg opts = some s0 ∧ LogOk lg ∧ s = { s0 with io := { s0.io with logger := lg } }

/-- What holds of a freshly built solver. -/
structure FreshOK (inst : Instance) (bcg : Assignment → Clause) (opts : KernelOptions) (s : Slv P C) : Prop where
  core : Core (inst.pb opts bcg) (fun _ => True) [] s
  cover : Cover (inst.pb opts bcg) (fun _ => True) []
  fence : s.fence = []
  tops : encTops s = inst.objs.map maxCost
  vals : EncVals (inst.pb opts bcg) s
  zero : ConstZero (inst.pb opts bcg) s
  base : IoBase inst.objs.length s.io
  opts : s.k.opts = opts
  bcg : s.k.bcg = bcg
  front : s.front = []
  off : ∀ (i : Nat) (e : ObjEnc P C), s.encs[i]? = some e → e.offset = 0
  lims : s.io.lims = Limits.none

theorem FreshOK.en {s : Slv P C} (h : FreshOK inst bcg opts s) :
    (inst.pb opts bcg).en = s.k.opts.enumeration ∧ (inst.pb opts bcg).blk = blkOf s.k := by
  refine ⟨by rw [h.opts]; rfl, ?_⟩
  funext sol
  unfold blkOf
  rw [h.opts, h.bcg, h.core.inv.objs]
  rfl

theorem fresh_ok {s : Slv P C} (hwf : WellFormed inst) (h : Fresh inst bcg opts s) : FreshOK inst bcg opts s := by
  obtain ⟨s0, lg, h0, hlg, rfl⟩ := h
  unfold Slv.new Kern.new at h0
  cases hv : inst.vm.maxVar with
  | none => rw [hv] at h0; simp at h0
  | some v =>
    rw [hv] at h0
    simp only [Option.map_some, Option.some.injEq] at h0
    subst h0
    have wf := pb_wf (opts := opts) (bcg := bcg) hwf
    have hn : (inst.pb opts bcg).n0 ≤ inst.vm.nextVar := hwf.enc
    have hei := initEncs_spec (P := P) (C := C) opts.reserveEncVars inst.objs inst.vm.nextVar
      (fun o ho p hp => Nat.lt_of_lt_of_le (wf.objs o ho p hp) hn)
    unfold Slv.init
    refine ⟨⟨?_, ⟨?_, ?_⟩, ⟨.nil, .nil⟩, .nil⟩, fun t _ => .inl trivial, rfl, hei.tops,
      initEncs_vals _ _ _, ?_, ⟨rfl, hlg⟩, rfl, rfl, rfl, ?_, rfl⟩
    · refine ⟨rfl, hei.len, Nat.le_trans hn hei.next, rfl, rfl, ?_, ?_, ?_, ?_, ?_, ?_, rfl⟩
      · exact wf.clauses.mono (Nat.le_trans hn hei.next)
      · intro i e he
        have hlt : i < inst.objs.length := by
          rw [← hei.len]; exact (List.getElem?_eq_some_iff.1 he).1
        exact (hei.each i e _ he (List.getElem?_eq_getElem hlt)).1
      · intro i e o he ho
        obtain ⟨-, h1, h2, -⟩ := hei.each i e o he ho
        refine ⟨fun t _ => by rw [h1]; exact Nat.zero_le _, fun hc => ⟨0, fun t _ => ?_⟩⟩
        unfold icost; rw [h2 hc]; rfl
      · intro m hm; exact ⟨hm, trivial⟩
      · intro m hm i e o he ho
        exact (hei.each i e o he ho).2.2.2 m
      · intro t ht _
        obtain ⟨m, h1, h2⟩ := hei.exact t
        have hm : cnfEval m (inst.pb opts bcg).F = true := by rw [← cnfEval_agree (h1.mono hn) wf.clauses]; exact ht
        exact ⟨m, h1.mono hn, hm, h2⟩
    · intro t _ h; exact absurd trivial h
    · intro t _ _ c hc; simp at hc
    · intro i e o he ho hc t _
      unfold icost
      rw [(hei.each i e o he ho).2.2.1 hc]; rfl
    · intro i e he
      have hlt : i < inst.objs.length := by
        rw [← hei.len]; exact (List.getElem?_eq_some_iff.1 he).1
      exact (hei.each i e _ he (List.getElem?_eq_getElem hlt)).2.1

theorem fresh_exists (hwf : WellFormed inst) : ∃ s : Slv P C, Fresh inst bcg opts s := by
  have : inst.vm.maxVar = some (inst.vm.nextVar - 1) := by
    unfold VarManager.maxVar; rw [if_neg (by have := hwf.enc; omega)]
  have h : ∃ s : Slv P C, Slv.new inst bcg opts = some s := by
    unfold Slv.new Kern.new
    rw [this]
    exact ⟨_, rfl⟩
  obtain ⟨s, hs⟩ := h
  exact ⟨_, s, none, hs, LogOk.none, rfl⟩

end Scuttle
