import Verif.Proof.Merge
import Verif.Proof.Solve

/-!
# Rules for core boosting
-/

set_option linter.unusedSectionVars false

namespace Scuttle

open Spec

variable {P C D : Type} [UbEnc P] [UbEnc C] [LawfulUbEnc P] [LawfulUbEnc C] [TotDb D] [LawfulTotDb D]
variable {env : Env} {s s' : Slv P C} {pb pb' : Pb} {d d' : D} {o o' : Objective} {E : Stop → Slv P C → Prop}
variable {inst : Instance} {opts : KernelOptions} {bcg : Assignment → Clause} {n fuel N : Nat}

open TotSem (Node Inner cnt Sound Exact Below Inputs Base IsOut)

/-! ## Objectives that differ in the lower bound -/

/-- The objectives differ in their lower bounds only. -/
def LbOnly (os os' : List Objective) : Prop := os'.map (Objective.setLowerBound 0) = os.map (Objective.setLowerBound 0)

theorem LbOnly.refl (os : List Objective) : LbOnly os os := rfl

theorem LbOnly.trans {os os' os'' : List Objective} (h : LbOnly os os') (h' : LbOnly os' os'') : LbOnly os os'' :=
  Eq.trans h' h

theorem LbOnly.symm {os os' : List Objective} (h : LbOnly os os') : LbOnly os' os := Eq.symm h

theorem setLowerBound_set (a b : Nat) (o : Objective) : (o.setLowerBound b).setLowerBound a = o.setLowerBound a := by
  cases o <;> rfl

theorem LbOnly.modify (os : List Objective) (i b : Nat) : LbOnly os (os.modify i (Objective.setLowerBound b)) := by
  unfold LbOnly
  apply List.ext_getElem?
  intro j
  simp only [List.getElem?_map, List.getElem?_modify]
  cases os[j]? with
  | none => rfl
  | some o =>
    by_cases hij : i = j
    · simp [hij, setLowerBound_set]
    · simp [hij]

theorem LbOnly.length {os os' : List Objective} (h : LbOnly os os') : os'.length = os.length := by
  have := congrArg List.length h
  simpa using this

theorem LbOnly.get {os os' : List Objective} (h : LbOnly os os') {i : Nat} (hi : os'[i]? = some o') :
    ∃ o, os[i]? = some o ∧ o'.setLowerBound 0 = o.setLowerBound 0 := by
  have := congrArg (fun l => l[i]?) h
  simp only [List.getElem?_map, hi, Option.map_some] at this
  cases ho : os[i]? with
  | none => rw [ho] at this; simp at this
  | some o =>
    rw [ho] at this
    exact ⟨o, rfl, by simpa using this⟩

theorem LbOnly.mem {os os' : List Objective} (h : LbOnly os os') (ho : o' ∈ os') :
    ∃ o ∈ os, o'.setLowerBound 0 = o.setLowerBound 0 := by
  obtain ⟨i, hi⟩ := List.mem_iff_getElem?.1 ho
  obtain ⟨o, h1, h2⟩ := h.get hi
  exact ⟨o, List.mem_of_getElem? h1, h2⟩

theorem iter_lb (b : Nat) (o : Objective) : (o.setLowerBound b).iter = o.iter := by cases o <;> rfl
theorem objLits_lb (b : Nat) (o : Objective) : objLits (o.setLowerBound b) = objLits o := by cases o <;> rfl
theorem offset_lb (b : Nat) (o : Objective) : (o.setLowerBound b).offset = o.offset := by cases o <;> rfl
theorem isConstant_lb (b : Nat) (o : Objective) : (o.setLowerBound b).isConstant = o.isConstant := by cases o <;> rfl
theorem objValue_lb (b : Nat) (o : Objective) (t : Asg) : objValue (o.setLowerBound b) t = objValue o t := by cases o <;> rfl
theorem lowerBound_lb (b : Nat) (o : Objective) : (o.setLowerBound b).lowerBound = b := by cases o <;> rfl

/-- `o` and `o'` differ in the lower bound only. -/
theorem lb_iter (h : o'.setLowerBound 0 = o.setLowerBound 0) : o'.iter = o.iter := by
  rw [← iter_lb 0 o', h, iter_lb]
theorem lb_objLits (h : o'.setLowerBound 0 = o.setLowerBound 0) : objLits o' = objLits o := by
  rw [← objLits_lb 0 o', h, objLits_lb]
theorem lb_offset (h : o'.setLowerBound 0 = o.setLowerBound 0) : o'.offset = o.offset := by
  rw [← offset_lb 0 o', h, offset_lb]
theorem lb_isConstant (h : o'.setLowerBound 0 = o.setLowerBound 0) : o'.isConstant = o.isConstant := by
  rw [← isConstant_lb 0 o', h, isConstant_lb]
theorem lb_objValue (h : o'.setLowerBound 0 = o.setLowerBound 0) (t : Asg) : objValue o' t = objValue o t := by
  rw [← objValue_lb 0 o', h, objValue_lb]
theorem lb_icost (h : o'.setLowerBound 0 = o.setLowerBound 0) (t : Asg) : icost o' t = icost o t := by
  unfold icost; rw [lb_iter h]
theorem lb_maxCost (h : o'.setLowerBound 0 = o.setLowerBound 0) : maxCost o' = maxCost o := by
  unfold maxCost; rw [lb_iter h]

/-- The instance with other lower bounds. -/
def Instance.withObjs (inst : Instance) (os : List Objective) : Instance := { inst with objs := os }

theorem LbOnly.problem {os : List Objective} (h : LbOnly inst.objs os) : problem (inst.withObjs os) = problem inst := by
  unfold Spec.problem Instance.withObjs
  congr 1
  simp only
  have : ∀ l : List Objective, l.map objValue = (l.map (Objective.setLowerBound 0)).map objValue := by
    intro l
    rw [List.map_map]
    exact List.map_congr_left fun o _ => by funext t; simp [objValue_lb]
  rw [this, h, ← this]

theorem LbOnly.setting {os : List Objective} (h : LbOnly inst.objs os) (hs : Setting inst bcg opts env) :
    Setting (inst.withObjs os) bcg opts env := by
  have hp := h.problem
  refine ⟨⟨hs.wf.orig, hs.wf.enc, hs.wf.clauses, ?_⟩, ?_, ?_, ?_, hs.oracle, ?_⟩
  · intro o' ho' l hl
    obtain ⟨o, ho, he⟩ := h.mem ho'
    rw [lb_objLits he] at hl
    exact hs.wf.objs o ho l hl
  · intro t ht o' ho'
    obtain ⟨o, ho, he⟩ := h.mem ho'
    rw [hp] at ht
    rw [lb_objValue he, lb_offset he]
    exact hs.fits t ht o ho
  · intro off w lits i lb ho'
    obtain ⟨o, ho, he⟩ := h.mem ho'
    cases o with
    | weighted off' lits' i' b' => simp [Objective.setLowerBound] at he
    | constant off' i' b' => simp [Objective.setLowerBound] at he
    | unweighted off' w' lits' i' b' =>
      simp only [Objective.setLowerBound, Objective.unweighted.injEq] at he
      rw [he.2.1]
      exact hs.unit _ _ _ _ _ ho
  · have hen := hs.enum
    generalize opts.enumeration = en at hen
    cases hen with
    | noEnum => exact .noEnum _
    | solutions l _ hg =>
      refine .solutions _ _ ?_
      intro a x ha hx
      rw [hp] at ha
      obtain ⟨h1, h2, h3⟩ := hg a x ha hx
      refine ⟨h1, h2, ?_⟩
      rw [hp]
      exact h3
    | pmcss l _ hg =>
      refine .pmcss _ _ ?_
      intro o' ho' l hl
      obtain ⟨o, ho, he⟩ := h.mem ho'
      rw [lb_objLits he] at hl
      exact hg o ho l hl
  · intro ht
    obtain ⟨h1, h2⟩ := hs.tight ht
    refine ⟨fun o' ho' => ?_, fun off lits i lb ho' => ?_⟩
    · obtain ⟨o, ho, he⟩ := h.mem ho'
      rw [lb_objLits he]
      exact h1 o ho
    · obtain ⟨o, ho, he⟩ := h.mem ho'
      cases o with
      | weighted off' lits' i' b' =>
        simp only [Objective.setLowerBound, Objective.weighted.injEq] at he
        rw [he.2.1]
        exact h2 _ _ _ _ ho
      | constant off' i' b' => simp [Objective.setLowerBound] at he
      | unweighted off' w' lits' i' b' => simp [Objective.setLowerBound] at he

/-! ## Changing the lower bounds in the state -/

theorem ObjEnc.sound_icost {e : ObjEnc P C} {m : Asg} (h : icost o' m = icost o m) (he : e.Sound o m) : e.Sound o' m := by
  cases e with
  | weighted e off => exact ⟨he.1, by rw [h]; exact he.2⟩
  | unweighted e off => exact ⟨he.1, by rw [h]; exact he.2⟩
  | constant => trivial

theorem ObjEnc.exact_icost {e : ObjEnc P C} {m : Asg} (h : icost o' m = icost o m) (he : e.Exact o m) : e.Exact o' m := by
  cases e with
  | weighted e off => exact ⟨he.1, by rw [h]; exact he.2⟩
  | unweighted e off => exact ⟨he.1, by rw [h]; exact he.2⟩
  | constant => trivial

/-- Only the lower bounds of the objectives differ. -/
structure PbLb (pb pb' : Pb) : Prop where
  F : pb'.F = pb.F
  n0 : pb'.n0 = pb.n0
  nOrig : pb'.nOrig = pb.nOrig
  objs : LbOnly pb.objs pb'.objs

theorem PbLb.sol (h : PbLb pb pb') (t : Asg) : pb'.Sol t ↔ pb.Sol t := by unfold Pb.Sol; rw [h.F]

theorem PbLb.wf (h : PbLb pb pb') (wf : pb.WF) : pb'.WF where
  clauses := by rw [h.n0, h.F]; exact wf.clauses
  objs := fun o' ho' p hp => by
    obtain ⟨o, ho, he⟩ := h.objs.mem ho'
    rw [lb_iter he] at hp
    rw [h.n0]
    exact wf.objs o ho p hp
  orig := by rw [h.n0, h.nOrig]; exact wf.orig

theorem XModel.reobj {m : Asg} {os : List Objective} (h : LbOnly s.k.objs os) (hm : XModel s m) :
    XModel { s with k := { s.k with objs := os } } m := by
  refine ⟨hm.db, fun i e o' he ho' => ?_⟩
  obtain ⟨o, h1, h2⟩ := h.get ho'
  exact ObjEnc.exact_icost (lb_icost h2 m) (hm.exact i e o he h1)

theorem DBInv.reobj {A : Asg → Prop} (h : PbLb pb pb') (hi : DBInv pb A s) :
    DBInv pb' A { s with k := { s.k with objs := pb'.objs } } where
  objs := rfl
  len := by rw [h.objs.length]; exact hi.len
  next := by rw [h.n0]; exact hi.next
  origVar := by rw [h.nOrig]; exact hi.origVar
  encVar := by rw [h.n0]; exact hi.encVar
  dbVars := hi.dbVars
  below := hi.below
  encFor := fun i e o' he ho' => by
    obtain ⟨o, h1, h2⟩ := h.objs.get ho'
    obtain ⟨h3, h4⟩ := hi.encFor i e o he h1
    refine ⟨fun t ht => by rw [lb_icost h2]; exact h3 t ((h.sol t).1 ht), fun hc => ?_⟩
    obtain ⟨K, hK⟩ := h4 hc
    exact ⟨K, fun t ht => by rw [lb_icost h2]; exact hK t ((h.sol t).1 ht)⟩
  sound := fun m hm => ⟨(h.sol m).2 (hi.sound m hm).1, (hi.sound m hm).2⟩
  encSound := fun m hm i e o' he ho' => by
    obtain ⟨o, h1, h2⟩ := h.objs.get ho'
    exact ObjEnc.sound_icost (lb_icost h2 m) (hi.encSound m hm i e o he h1)
  ext := fun t ht hA => by
    obtain ⟨m, h1, h2⟩ := hi.ext t ((h.sol t).1 ht) hA
    exact ⟨m, by rw [h.n0]; exact h1, h2.reobj (by rw [hi.objs]; exact h.objs)⟩
  unlimited := hi.unlimited

theorem CG.reobj (h : PbLb pb pb') (hi : CG pb d s) : CG pb' d { s with k := { s.k with objs := pb'.objs } } where
  inv := hi.inv.reobj h
  below := hi.below
  base := by rw [h.n0]; exact hi.base
  inputs := by rw [h.n0]; exact hi.inputs
  sound := hi.sound
  ext := fun t ht => by
    obtain ⟨m, h1, h2, h3⟩ := hi.ext t ((h.sol t).1 ht)
    exact ⟨m, by rw [h.n0]; exact h1, h2.reobj (by have := hi.inv.objs; unfold unl at this; rw [this]; exact h.objs), h3⟩

/-! ## The loop over the objectives -/

/-- What is known of a reformulation and its database. -/
structure Entry (pb : Pb) (o : Objective) (r : Reform) (d : D) (s : Slv P C) : Prop where
  below : Below d s.k.vm.nextVar
  inputs : Inputs d pb.n0
  sound : ∀ m, cnfEval m s.k.db = true → Sound d m
  merge : MergeOK pb o d r.inactives.iter r.refs r.offset
  shape : r.inactives ≠ .constant → r.inactives.iter ≠ []
  lower : ∀ t, pb.Sol t → r.offset ≤ icost o t
  opt : (o.isConstant = false ∨ ∃ t, pb.Sol t) → ∃ t, pb.Sol t ∧ icost o t = r.offset
  bound : o.lowerBound = r.offset

/-- What is known of the outputs that a reformulation uses. -/
structure RefOuts (n0 : Nat) (r : Reform) (d : D) : Prop where
  base : Base d n0
  roots : (r.refs.map fun p => p.2.root).Nodup
  outs : ∀ l rd, mapGet l r.refs = some rd → Inner d rd.root ∧ IsOut d rd.root rd.oidx l
  lew : ∀ l rd w, mapGet l r.refs = some rd → (l, w) ∈ r.inactives.iter → w ≤ rd.totWeight

/-- The problem with the lower bounds as in the state. -/
abbrev pbAt (inst : Instance) (opts : KernelOptions) (bcg : Assignment → Clause) (s : Slv P C) : Pb :=
  (inst.withObjs s.k.objs).pb opts bcg

theorem pbLb {os os' : List Objective} (h : LbOnly os os') :
    PbLb ((inst.withObjs os).pb opts bcg) ((inst.withObjs os').pb opts bcg) := ⟨rfl, rfl, rfl, h⟩

/-- How the search for lower bounds stops. -/
def BStop (inst : Instance) (opts : KernelOptions) (bcg : Assignment → Clause) (env : Env) (fuel N : Nat) (s0 : Slv P C)
    (e : Stop) (s : Slv P C) : Prop :=
  IoBase inst.objs.length s.io ∧ match e with
    | .terminated _ => LbOnly inst.objs s.k.objs ∧ Usable (pbAt inst opts bcg s) s0 s
    | .error => LogFail env ∧ LbOnly inst.objs s.k.objs ∧ Usable (pbAt inst opts bcg s) s0 s
    | .panic => ¬ ∃ t, (inst.pb opts bcg).Sol t
    | .fuel => (∃ t, (inst.pb opts bcg).Sol t) → fuel ≤ N

theorem GStop.boost {os : List Objective} {s0 : Slv P C} {e : Stop} (h : LbOnly inst.objs os)
    (he : GStop ((inst.withObjs os).pb opts bcg) env inst.objs.length fuel N s0 e s) :
    BStop inst opts bcg env fuel N s0 e s := by
  have hs : (∃ t, ((inst.withObjs os).pb opts bcg).Sol t) ↔ ∃ t, (inst.pb opts bcg).Sol t := by
    simp only [(pbLb (opts := opts) (bcg := bcg) h).sol]
    exact Iff.rfl
  have hu : Usable ((inst.withObjs os).pb opts bcg) s0 s → LbOnly inst.objs s.k.objs ∧ Usable (pbAt inst opts bcg s) s0 s := by
    intro hu
    have ho : s.k.objs = os := hu.inv.objs
    unfold pbAt
    rw [ho]
    exact ⟨h, hu⟩
  refine ⟨he.1, ?_⟩
  have := he.2
  cases e with
  | fuel => intro hsat; exact this (hs.2 hsat)
  | panic => intro hsat; exact this (hs.2 hsat)
  | error => exact ⟨this.1, hu this.2⟩
  | terminated t => exact hu this

theorem BStop.ofIo {s0 : Slv P C} {e : Stop} (h : LbOnly inst.objs s.k.objs) (hu : Usable (pbAt inst opts bcg s) s0 s)
    (hsame : Same s s') (he : IoStopQ env inst.objs.length e s') : BStop inst opts bcg env fuel N s0 e s' :=
  GStop.boost h (GStop.ofIo hu hsame he)

/-- Invariant of the loop, with `s0` the state at the start. -/
structure BInv (inst : Instance) (opts : KernelOptions) (bcg : Assignment → Clause) (env : Env) (s0 : Slv P C)
    (acc : List (Reform × D)) (s : Slv P C) : Prop where
  rel : LbOnly inst.objs s.k.objs
  cg : CG (pbAt inst opts bcg s) (TotDb.empty : D) s
  lim : s.k.conflLimited = false
  io : IoInv env inst.objs.length s.io
  frame : Frame s0 s
  encs : s.encs = s0.encs
  each : ∀ (j : Nat) (r : Reform) (d : D) (o : Objective), acc[j]? = some (r, d) → s.k.objs[j]? = some o →
    Entry (pbAt inst opts bcg s) o r d s
  refs : ∀ p ∈ acc, RefOuts (inst.pb opts bcg).n0 p.1 p.2
  ext : ∀ t, (pbAt inst opts bcg s).Sol t → ∃ m, AgreeBelow (pbAt inst opts bcg s).n0 t m ∧ XModel s m ∧
    ∀ p ∈ acc, Exact p.2 m

theorem BInv.usable {s0 : Slv P C} {acc : List (Reform × D)} (h : BInv inst opts bcg env s0 acc s) :
    Usable (pbAt inst opts bcg s) s0 s :=
  ⟨h.cg.inv, h.frame, h.encs, by rw [h.lim]; simp⟩

theorem icost_le_usize {os : List Objective} (hl : LbOnly inst.objs os) (hs : Setting inst bcg opts env) {o : Objective}
    (ho : o ∈ os) {t : Asg} (ht : ((inst.withObjs os).pb opts bcg).Sol t) : icost o t ≤ usizeMax := by
  have hs' := hl.setting hs
  have h1 := pb_fits (opts := opts) (bcg := bcg) hs'.fits t ht o ho
  have h2 := unitWeight_pos hs'.unit (o := o) ho
  have h3 : icost o t ≤ icost o t * o.unitWeight := Nat.le_mul_of_pos_right _ h2
  have h4 : isizeMax ≤ usizeMax := by decide
  omega

theorem empty_cg {A : Asg → Prop} (hi : DBInv pb A s) (hA : ∀ t, A t) : CG pb (TotDb.empty : D) s where
  inv := by
    have : unl s = s := unl_of hi.unlimited
    rw [this]
    have hA' : A = fun _ => True := by funext t; simp [hA t]
    rw [← hA']
    exact hi
  below := LawfulTotDb.empty_below _
  base := LawfulTotDb.empty_base _
  inputs := LawfulTotDb.empty_inputs _
  sound := fun m _ => LawfulTotDb.empty_sound m
  ext := fun t ht => by
    obtain ⟨m, h1, h2⟩ := hi.ext t ht (hA t)
    exact ⟨m, h1, h2, LawfulTotDb.empty_exact m⟩

/-- The invariant on clauses and encodings does not depend on the database. -/
theorem CG.toEmpty (h : CG pb d s) : CG pb (TotDb.empty : D) s where
  inv := h.inv
  below := LawfulTotDb.empty_below _
  base := LawfulTotDb.empty_base _
  inputs := LawfulTotDb.empty_inputs _
  sound := fun m _ => LawfulTotDb.empty_sound m
  ext := fun t ht => by
    obtain ⟨m, h1, h2, -⟩ := h.ext t ht
    exact ⟨m, h1, h2, LawfulTotDb.empty_exact m⟩

/-- One more objective has been processed. -/
theorem BInv.push {s0 s1 : Slv P C} {acc : List (Reform × D)} {r : Reform} {k : Nat} (h : BInv inst opts bcg env s0 acc s)
    (hk : acc.length = k) (ho : s.k.objs[k]? = some o)
    (hcg : CG (pbAt inst opts bcg s) d s1) (hst : TStep s (TotDb.empty : D) s1 d) (hlim : s1.k.conflLimited = false)
    (hio : IoInv env inst.objs.length s1.io)
    (hmerge : MergeOK (pbAt inst opts bcg s) o d r.inactives.iter r.refs r.offset)
    (hrefs : RefOuts (inst.pb opts bcg).n0 r d)
    (hshape : r.inactives ≠ .constant → r.inactives.iter ≠ [])
    (hlower : ∀ t, (pbAt inst opts bcg s).Sol t → r.offset ≤ icost o t)
    (hopt : (o.isConstant = false ∨ ∃ t, (pbAt inst opts bcg s).Sol t) → ∃ t, (pbAt inst opts bcg s).Sol t ∧ icost o t = r.offset) :
    BInv inst opts bcg env s0 (acc ++ [(r, d)])
      { s1 with k := { s1.k with objs := s1.k.objs.modify k (Objective.setLowerBound r.offset) } } := by
  have hobj : s1.k.objs = s.k.objs := hst.objs
  have hrel1 := LbOnly.modify s.k.objs k r.offset
  have hlb := pbLb (inst := inst) (opts := opts) (bcg := bcg) hrel1
  have hnext : s.k.vm.nextVar ≤ s1.k.vm.nextVar := hst.next
  have hdb : ∀ m, cnfEval m s1.k.db = true → cnfEval m s.k.db = true := by
    intro m hm
    obtain ⟨cs, hcs⟩ := hst.db
    rw [hcs, cnfEval_append] at hm
    exact hm.1
  refine ⟨?_, ?_, hlim, hio, ?_, hst.encs.trans h.encs, ?_, ?_, ?_⟩
  · simp only [hobj]; exact h.rel.trans hrel1
  · have := (hcg.toEmpty (D := D)).reobj hlb
    simp only [hobj] at *
    exact this
  · exact h.frame.trans ⟨hst.frame.front, hst.frame.opts, hst.frame.bcg, hst.frame.origCnf, hst.frame.fence⟩
  · intro j r' d' o' hj ho'
    simp only [hobj] at ho'
    obtain ⟨o1, ho1, he1⟩ := hrel1.get ho'
    have hcost := lb_icost he1
    simp only [hobj, pbAt] at *
    rw [List.getElem?_append] at hj
    split at hj
    · next hlt =>
      have he := h.each j r' d' o1 hj ho1
      have hne : k ≠ j := by omega
      have : o' = o1 := by
        rw [List.getElem?_modify, ho1] at ho'
        simpa [hne] using ho'.symm
      subst this
      exact ⟨LawfulTotDb.below_mono _ _ _ he.below hnext, he.inputs, fun m hm => he.sound m (hdb m hm),
        he.merge.reobj rfl rfl rfl, he.shape, he.lower, he.opt, he.bound⟩
    · next hlt =>
      have hjk : j = k := by
        have := (List.getElem?_eq_some_iff.1 hj).1
        simp only [List.length_singleton] at this
        omega
      subst hjk
      rw [hk, Nat.sub_self] at hj
      simp only [List.getElem?_cons_zero, Option.some.injEq, Prod.mk.injEq] at hj
      obtain ⟨rfl, rfl⟩ := hj
      have hoo : o1 = o := by rw [ho] at ho1; simpa using ho1.symm
      subst hoo
      rw [List.getElem?_modify, ho] at ho'
      simp only [if_true, Option.map_eq_map, Option.map_some, Option.some.injEq] at ho'
      subst ho'
      refine ⟨hcg.below, hcg.inputs, hcg.sound, hmerge.reobj rfl rfl (iter_lb _ _), hshape, fun t ht => ?_, fun hsat => ?_,
        lowerBound_lb _ _⟩
      · rw [hcost]; exact hlower t ht
      · rw [isConstant_lb] at hsat
        obtain ⟨t, h1, h2⟩ := hopt hsat
        exact ⟨t, h1, by rw [hcost]; exact h2⟩
  · intro p hp
    rcases List.mem_append.1 hp with hp | hp
    · exact h.refs p hp
    · simp only [List.mem_singleton] at hp
      subst hp
      exact hrefs
  · intro t ht
    simp only [hobj, pbAt] at ht ⊢
    obtain ⟨m, h1, h2, h3⟩ := h.ext t ht
    obtain ⟨m', h4, h5, h6⟩ := hst.ext m h2 (LawfulTotDb.empty_exact m)
    refine ⟨m', h1.trans (h4.mono h.cg.n0_le), ?_, ?_⟩
    · have := h5.reobj (os := s.k.objs.modify k (Objective.setLowerBound r.offset)) (by rw [hobj]; exact hrel1)
      exact this
    · intro p hp
      rcases List.mem_append.1 hp with hp | hp
      · obtain ⟨j, hj⟩ := List.mem_iff_getElem?.1 hp
        have hlt : j < s.k.objs.length := by
          have h7 := (List.getElem?_eq_some_iff.1 hj).1
          have h8 := (List.getElem?_eq_some_iff.1 ho).1
          omega
        have he := h.each j p.1 p.2 _ hj (List.getElem?_eq_getElem hlt)
        exact LawfulTotDb.exact_local _ _ _ _ he.below h4 (h3 p hp)
      · simp only [List.mem_singleton] at hp
        subst hp
        exact h6

/-- Number of iterations that suffices for the loops of core boosting. -/
def boostBound (inst : Instance) : Nat := 2 * (inst.objs.map maxCost).sum + 1

theorem maxCost_le_sum {os : List Objective} {o : Objective} (h : o ∈ os) : maxCost o ≤ (os.map maxCost).sum := by
  induction os with
  | nil => simp at h
  | cons a os ih =>
    simp only [List.map_cons, List.sum_cons]
    rcases List.mem_cons.1 h with rfl | h
    · omega
    · have := ih h; omega

theorem wp_coreBoostLoop (hs : Setting inst bcg opts env) (nd : NoDupCores env) (hlits : NoDupLits inst) {s0 : Slv P C}
    (k : Nat) (acc : List (Reform × D)) (h : BInv inst opts bcg env s0 acc s) (hk : acc.length + k ≤ inst.objs.length) :
    wp env (coreBoostLoop D fuel k acc.length acc) (fun r s' =>
      IoInv env inst.objs.length s'.io ∧ (r.2 = true → ¬ ∃ t, (problem inst).Feasible t) ∧
      (r.2 = false → BInv inst opts bcg env s0 r.1 s' ∧ r.1.length = acc.length + k) ∧
      LbOnly inst.objs s'.k.objs ∧ Usable (pbAt inst opts bcg s') s0 s')
      (BStop inst opts bcg env fuel (boostBound inst) s0) s := by
  induction k generalizing acc s with
  | zero =>
    unfold coreBoostLoop
    rw [wp_pure]
    exact ⟨h.io, by simp, fun _ => ⟨h, rfl⟩, h.rel, h.usable⟩
  | succ k ih =>
    unfold coreBoostLoop
    rw [wp_bind, wp_getS]
    have hlen := h.rel.length
    have hlt : acc.length < s.k.objs.length := by omega
    rw [List.getElem?_eq_getElem hlt, wp_bind, wp_unwrap_some]
    have ho : s.k.objs[acc.length]? = some s.k.objs[acc.length] := List.getElem?_eq_getElem hlt
    generalize s.k.objs[acc.length] = o at ho
    have hmem : o ∈ s.k.objs := List.mem_of_getElem? ho
    have hpb := pbLb (inst := inst) (opts := opts) (bcg := bcg) h.rel
    have hlen' : ∀ (r : Reform) (d : D), (acc ++ [(r, d)]).length = acc.length + 1 := by simp
    have hgo : ∀ (r : Reform) (d : D) s1, BInv inst opts bcg env s0 (acc ++ [(r, d)])
        { s1 with k := { s1.k with objs := s1.k.objs.modify acc.length (Objective.setLowerBound r.offset) } } →
        wp env (do
          setLowerBoundAt acc.length r.offset
          coreBoostLoop D fuel k (acc.length + 1) (acc ++ [(r, d)]))
        (fun r s' => IoInv env inst.objs.length s'.io ∧ (r.2 = true → ¬ ∃ t, (problem inst).Feasible t) ∧
          (r.2 = false → BInv inst opts bcg env s0 r.1 s' ∧ r.1.length = acc.length + (k + 1)) ∧
          LbOnly inst.objs s'.k.objs ∧ Usable (pbAt inst opts bcg s') s0 s')
        (BStop inst opts bcg env fuel (boostBound inst) s0) s1 := by
      intro r d s1 hb
      unfold setLowerBoundAt
      rw [wp_bind, wp_modifyS]
      have := ih (acc ++ [(r, d)]) hb (by rw [hlen']; omega)
      rw [hlen'] at this
      refine wp_mono this ?_ (fun _ _ h => h)
      rintro r' s' ⟨g1, g2, g3, g4⟩
      exact ⟨g1, g2, fun h => ⟨(g3 h).1, by rw [(g3 h).2]; omega⟩, g4⟩
    rw [wp_bind]
    split
    · next hc =>
      rw [wp_pure]
      simp only
      apply hgo
      have hit : o.iter = [] := by cases o <;> simp_all [Objective.isConstant, Objective.iter]
      have hrf : Reform.ofObjective o = ⟨.constant, [], 0⟩ := by cases o <;> simp_all [Objective.isConstant, Reform.ofObjective]
      have hz : ∀ t, icost o t = 0 := fun t => by unfold icost; rw [hit]; rfl
      refine h.push rfl ho h.cg (TStep.refl _ _) h.lim h.io ?_
        ⟨LawfulTotDb.empty_base _, by simp [hrf], by simp [hrf, mapGet], by simp [hrf, mapGet]⟩ (by simp [hrf]) (by simp [hrf]) ?_
      · rw [hrf]
        exact ⟨List.nodup_nil, List.nodup_nil, by simp [Inactives.iter], by simp [mapGet], by simp [Inactives.iter],
          fun t _ => by rw [hz]; rfl, by unfold maxCost; rw [hit]; rfl⟩
      rintro (h' | ⟨t, ht⟩)
      · rw [hc] at h'; simp at h'
      · exact ⟨t, ht, by rw [hz, hrf]⟩
    · next hc =>
      rw [wp_bind]
      have hc' : o.isConstant = false := by simpa using hc
      obtain ⟨oo, hoo, hee⟩ := h.rel.mem hmem
      have wf := pb_wf (opts := opts) (bcg := bcg) (h.rel.setting hs).wf
      have hob : ∀ l ∈ objLits o, l.var < (pbAt inst opts bcg s).n0 := by
        intro l hl
        obtain ⟨p, hp, rfl⟩ := (mem_objLits o l).1 hl
        exact wf.objs o hmem p hp
      refine wp_mono (wp_oll (n := inst.objs.length) (N := boostBound inst) wf (CorrectOracle.ok hs.oracle) nd hc' hob
        (by rw [lb_objLits hee]; exact hlits oo hoo) (fun t ht => icost_le_usize h.rel hs hmem ht) ?_ h.cg h.lim h.io true
        h.usable) ?_ (fun _ _ h' => h'.boost h.rel)
      · have := maxCost_le_sum hoo
        rw [lb_maxCost hee]
        unfold boostBound
        omega
      · rintro ⟨sol, r, d⟩ s1 hr
        cases sol with
        | none =>
          simp only [OllPost] at hr
          simp only
          rw [wp_pure]
          simp only
          rw [wp_pure]
          obtain ⟨hr1, hr2, hr3, d', hr4, hr5⟩ := hr
          have hob1 : s1.k.objs = s.k.objs := hr5.objs
          refine ⟨hr2, fun _ => ?_, by simp, by rw [hob1]; exact h.rel, ?_⟩
          rotate_left
          · unfold pbAt
            rw [hob1]
            exact h.usable.step hr4 hr5 (by rw [hr3]; simp)
          rintro ⟨t, ht⟩
          exact hr1 ⟨t, (feasible_iff (opts := opts) (bcg := bcg) t).1 ht⟩
        | some sol =>
          simp only [OllPost] at hr
          simp only
          rw [wp_pure]
          simp only
          exact hgo _ _ _ (h.push rfl ho hr.keeps.cg hr.keeps.step hr.lim hr.keeps.io (hr.merge hob)
            ⟨hr.keeps.cg.base, hr.ref.roots, fun l rd hg => ⟨(hr.ref.refs l rd hg).1, (hr.ref.refs l rd hg).2.1⟩, hr.ref.lew⟩
            hr.shape hr.lower
            (fun _ => hr.opt))

theorem BInv.setIo {s0 : Slv P C} {acc : List (Reform × D)} {io : Io} (h : BInv inst opts bcg env s0 acc s)
    (hio : IoInv env inst.objs.length io) : BInv inst opts bcg env s0 acc { s with io := io } where
  rel := h.rel
  cg := h.cg.same ⟨rfl, rfl, rfl, rfl⟩
  lim := h.lim
  io := hio
  frame := ⟨h.frame.front, h.frame.opts, h.frame.bcg, h.frame.origCnf, h.frame.fence⟩
  encs := h.encs
  each := fun j r d o h1 h2 => by
    have := h.each j r d o h1 h2
    exact ⟨this.below, this.inputs, this.sound, this.merge, this.shape, this.lower, this.opt, this.bound⟩
  refs := h.refs
  ext := fun t ht => by
    obtain ⟨m, h1, h2, h3⟩ := h.ext t ht
    exact ⟨m, h1, ⟨h2.db, h2.exact⟩, h3⟩

theorem Same.setIo (h : Same s s') (hk : s'.k = s.k) : s' = { s with io := s'.io } := by
  obtain ⟨-, h2, h3, h4⟩ := h
  cases s
  cases s'
  simp_all

theorem BInv.same {s0 : Slv P C} {acc : List (Reform × D)} (h : BInv inst opts bcg env s0 acc s) (hsame : Same s s')
    (hk : s'.k = s.k) (hio : IoInv env inst.objs.length s'.io) : BInv inst opts bcg env s0 acc s' := by
  rw [hsame.setIo hk]
  exact h.setIo hio

theorem wp_kernelCoreBoost (hs : Setting inst bcg opts env) (nd : NoDupCores env) (hlits : NoDupLits inst) {s0 : Slv P C}
    (h : BInv inst opts bcg env s0 ([] : List (Reform × D)) s) :
    wp env (kernelCoreBoost D fuel) (fun r s' => IoInv env inst.objs.length s'.io ∧ match r with
      | none => ¬ ∃ t, (problem inst).Feasible t
      | some res => BInv inst opts bcg env s0 res s' ∧ res.length = inst.objs.length)
      (BStop inst opts bcg env fuel (boostBound inst) s0) s := by
  unfold kernelCoreBoost logRoutineStart logRoutineEnd
  rw [wp_bind]
  refine wp_logEvent _ h.io (fun s1 h1 hk1 hio1 => ?_) (fun e s' hh he => BStop.ofIo h.rel h.usable hh he)
  have hb := h.same h1 hk1 hio1
  rw [wp_bind, wp_getS, wp_bind, hio1.base.1]
  refine wp_mono (wp_coreBoostLoop hs nd hlits inst.objs.length [] hb (by simp)) ?_ (fun _ _ h => h)
  rintro ⟨acc, found⟩ s2 ⟨hio2, hf, ht, hrel2, hu2⟩
  rw [wp_bind]
  refine wp_logEvent _ hio2 (fun s3 h3 hk3 hio3 => ?_) (fun e s' hh he => BStop.ofIo hrel2 hu2 hh he)
  rw [wp_bind]
  refine wp_logEvent _ hio3 (fun s4 h4 hk4 hio4 => ?_) (fun e s' hh he => BStop.ofIo hrel2 hu2 (h3.trans hh) he)
  rw [wp_pure]
  refine ⟨hio4, ?_⟩
  cases found with
  | true => exact hf rfl
  | false =>
    obtain ⟨h5, h6⟩ := ht rfl
    exact ⟨(h5.same h3 hk3 hio3).same h4 hk4 hio4, by simpa using h6⟩

/-! ## Replacing the encodings -/

/-- State in which the encodings can be replaced by ones over the databases in `res`. -/
structure Ready (inst : Instance) (opts : KernelOptions) (bcg : Assignment → Clause) (env : Env) (s0 : Slv P C)
    (res : List (Reform × D)) (s : Slv P C) : Prop where
  rel : LbOnly inst.objs s.k.objs
  next : inst.vm.maxEncVar + 1 ≤ s.k.vm.nextVar
  origVar : s.k.vm.maxOrigVar = inst.vm.maxOrigVar
  encVar : s.k.vm.maxEncVar = inst.vm.maxEncVar
  dbVars : VarsBelow s.k.vm.nextVar s.k.db
  lim : s.k.conflLimited = false
  db : ∀ m, cnfEval m s.k.db = true → (pbAt inst opts bcg s).Sol m
  frame : Frame s0 s
  encs : s.encs = s0.encs
  each : ∀ (j : Nat) (r : Reform) (d : D) (o : Objective), res[j]? = some (r, d) → s.k.objs[j]? = some o →
    Entry (pbAt inst opts bcg s) o r d s
  ext : ∀ t, (pbAt inst opts bcg s).Sol t → ∃ m, AgreeBelow (pbAt inst opts bcg s).n0 t m ∧ cnfEval m s.k.db = true ∧
    ∀ p ∈ res, Exact p.2 m

theorem BInv.ready {s0 : Slv P C} {res : List (Reform × D)} (h : BInv inst opts bcg env s0 res s) :
    Ready inst opts bcg env s0 res s where
  rel := h.rel
  next := h.cg.inv.next
  origVar := by have := h.cg.inv.origVar; exact Nat.succ.inj this
  encVar := by have := h.cg.inv.encVar; exact Nat.succ.inj this
  dbVars := h.cg.inv.dbVars
  lim := h.lim
  db := fun m hm => (h.cg.inv.sound m hm).1
  frame := h.frame
  encs := h.encs
  each := h.each
  ext := fun t ht => by
    obtain ⟨m, h1, h2, h3⟩ := h.ext t ht
    exact ⟨m, h1, h2.db, h3⟩

theorem Ready.setIo {s0 : Slv P C} {res : List (Reform × D)} {io : Io} (h : Ready inst opts bcg env s0 res s) :
    Ready inst opts bcg env s0 res { s with io := io } where
  rel := h.rel
  next := h.next
  origVar := h.origVar
  encVar := h.encVar
  dbVars := h.dbVars
  lim := h.lim
  db := h.db
  frame := ⟨h.frame.front, h.frame.opts, h.frame.bcg, h.frame.origCnf, h.frame.fence⟩
  encs := h.encs
  each := fun j r d o h1 h2 => by
    have := h.each j r d o h1 h2
    exact ⟨this.below, this.inputs, this.sound, this.merge, this.shape, this.lower, this.opt, this.bound⟩
  ext := h.ext

theorem Ready.same {s0 : Slv P C} {res : List (Reform × D)} (h : Ready inst opts bcg env s0 res s) (hsame : Same s s')
    (hk : s'.k = s.k) : Ready inst opts bcg env s0 res s' := by
  rw [hsame.setIo hk]
  exact h.setIo

/-- The databases after the oracle has been reset. -/
def resetAll (res : List (Reform × D)) : List (Reform × D) := res.map fun p => (p.1, TotDb.resetVars p.2)

theorem Ready.reset {s0 : Slv P C} {res : List (Reform × D)} (hwf : WellFormed inst) (h : Ready inst opts bcg env s0 res s) :
    Ready inst opts bcg env s0 (resetAll res) { s with k := { s.k with
      db := inst.clauses, ostate := .input, conflLimited := false, vm := s.k.vm.forgetFrom (s.k.vm.maxEncVar + 1) } } := by
  have hn : (s.k.vm.forgetFrom (s.k.vm.maxEncVar + 1)).nextVar = inst.vm.maxEncVar + 1 := by
    have := h.next
    unfold VarManager.forgetFrom
    simp only [h.encVar]
    omega
  refine ⟨h.rel, ?_, h.origVar, h.encVar, ?_, rfl, fun m hm => hm, ?_, h.encs, ?_, ?_⟩
  · simp only [hn]; exact Nat.le_refl _
  · simp only [hn]
    exact (pb_wf (opts := opts) (bcg := bcg) hwf).clauses
  · exact ⟨h.frame.front, h.frame.opts, h.frame.bcg, h.frame.origCnf, h.frame.fence⟩
  · intro j r d o hj ho
    unfold resetAll at hj
    rw [List.getElem?_map] at hj
    cases hr : res[j]? with
    | none => rw [hr] at hj; simp at hj
    | some p =>
      rw [hr] at hj
      simp only [Option.map_some, Option.some.injEq, Prod.mk.injEq] at hj
      obtain ⟨rfl, rfl⟩ := hj
      have he := h.each j p.1 p.2 o hr ho
      refine ⟨?_, LawfulTotDb.reset_inputs _ _ he.inputs, fun m _ => LawfulTotDb.reset_sound _ _, 
        he.merge.keep (LawfulTotDb.reset_keep _), he.shape, he.lower, he.opt, he.bound⟩
      simp only [hn]
      exact LawfulTotDb.reset_below _ _ he.inputs
  · intro t ht
    refine ⟨t, fun _ _ => rfl, ht, ?_⟩
    intro p hp
    obtain ⟨q, -, rfl⟩ := List.mem_map.1 hp
    exact LawfulTotDb.reset_exact _ _

variable [MergeEnc P C D] [LawfulMergeEnc P C D]

/-- Result of the loop that replaces the encodings. -/
structure Replaced (pb : Pb) (i : Nat) (res : List (Reform × D)) (s s' : Slv P C) : Prop where
  k : s'.k = s.k
  front : s'.front = s.front
  fence : s'.fence = s.fence
  len : s'.encs.length = s.encs.length
  before : ∀ j, j < i → s'.encs[j]? = s.encs[j]?
  each : ∀ (j : Nat) (r : Reform) (d : D) (o : Objective), res[j]? = some (r, d) → s.k.objs[i + j]? = some o →
    (o.isConstant = true → s'.encs[i + j]? = s.encs[i + j]?) ∧
    (o.isConstant = false → ∃ e, s'.encs[i + j]? = some e ∧ GoodEnc pb o d r.offset e)

/-- State in which the loop that replaces the encodings may stop. -/
structure Mixed (pb : Pb) (i : Nat) (res : List (Reform × D)) (s s' : Slv P C) : Prop where
  k : s'.k = { s.k with ostate := s'.k.ostate }
  front : s'.front = s.front
  fence : s'.fence = s.fence
  len : s'.encs.length = s.encs.length
  each : ∀ (j : Nat) (e : ObjEnc P C), s'.encs[j]? = some e → s.encs[j]? = some e ∨
    ∃ (x : Nat) (r : Reform) (d : D) (o : Objective), j = i + x ∧ res[x]? = some (r, d) ∧ s.k.objs[j]? = some o ∧
      o.isConstant = false ∧ GoodEnc pb o d r.offset e

theorem wp_replaceEncs (rebase reset : Bool) (res : List (Reform × D)) (i : Nat) (hio : IoInv env n s.io)
    (hlen : i + res.length = s.k.objs.length) (henc : s.encs.length = s.k.objs.length)
    (h : ∀ (j : Nat) (r : Reform) (d : D) (o : Objective), (if reset then resetAll res else res)[j]? = some (r, d) →
      s.k.objs[i + j]? = some o → o.isConstant = false →
      MergeOK pb o d r.inactives.iter r.refs r.offset ∧ (r.inactives ≠ .constant → r.inactives.iter ≠ [])) :
    wp env (replaceEncs rebase reset i res) (fun _ s' => IoInv env n s'.io ∧
      Replaced pb i (if reset then resetAll res else res) s s')
      (fun e s' => IoStopQ env n e s' ∧ Mixed pb i (if reset then resetAll res else res) s s') s := by
  induction res generalizing i s with
  | nil =>
    unfold replaceEncs
    rw [wp_pure]
    refine ⟨hio, rfl, rfl, rfl, rfl, fun _ _ => rfl, ?_⟩
    intro j r d o hj
    cases reset <;> simp [resetAll] at hj
  | cons p res ih =>
    obtain ⟨reform, d⟩ := p
    have hcons : (if reset then resetAll ((reform, d) :: res) else (reform, d) :: res) =
        (reform, if reset then TotDb.resetVars d else d) :: (if reset then resetAll res else res) := by
      cases reset <;> simp [resetAll]
    rw [hcons] at h ⊢
    unfold replaceEncs
    simp only
    rw [wp_bind, wp_getS, wp_bind]
    simp only [List.length_cons] at hlen
    have hlt : i < s.k.objs.length := by omega
    have ho : s.k.objs[i]? = some s.k.objs[i] := List.getElem?_eq_getElem hlt
    rw [ho, wp_unwrap_some]
    generalize s.k.objs[i] = o at ho
    generalize hd : (if reset then TotDb.resetVars d else d) = d1 at h ⊢
    have hgo : ∀ s1, IoInv env n s1.io → s1.k = s.k → s1.front = s.front → s1.fence = s.fence →
        s1.encs.length = s.encs.length → (∀ j, j ≠ i → s1.encs[j]? = s.encs[j]?) →
        (o.isConstant = true → s1.encs[i]? = s.encs[i]?) →
        (o.isConstant = false → ∃ e, s1.encs[i]? = some e ∧ GoodEnc pb o d1 reform.offset e) →
        wp env (do checkTermination; replaceEncs rebase reset (i + 1) res)
          (fun _ s' => IoInv env n s'.io ∧ Replaced pb i ((reform, d1) :: (if reset then resetAll res else res)) s s')
          (fun e s' => IoStopQ env n e s' ∧ Mixed pb i ((reform, d1) :: (if reset then resetAll res else res)) s s') s1 := by
      intro s1 hio1 hk1 hf1 hfe1 hl1 hne1 hc1 hg1
      have hmix : ∀ (j : Nat) (e : ObjEnc P C), s1.encs[j]? = some e → s.encs[j]? = some e ∨
          ∃ (x : Nat) (r : Reform) (d : D) (o : Objective), j = i + x ∧
            ((reform, d1) :: (if reset then resetAll res else res))[x]? = some (r, d) ∧ s.k.objs[j]? = some o ∧
            o.isConstant = false ∧ GoodEnc pb o d r.offset e := by
        intro j e he
        by_cases hj : j = i
        · subst hj
          cases hc : o.isConstant with
          | true => left; rw [← hc1 hc]; exact he
          | false =>
            right
            obtain ⟨e', h5, h6⟩ := hg1 hc
            obtain rfl : e = e' := by rw [he] at h5; simpa using h5
            exact ⟨0, reform, d1, o, rfl, rfl, ho, hc, h6⟩
        · left; rw [← hne1 j hj]; exact he
      rw [wp_bind]
      refine wp_checkTermination hio1 (fun s2 h2 hk2 hio2 _ => ?_) (fun e s' hh h => ⟨h, by rw [hh.k, hk1],
        hh.front.trans hf1, hh.fence.trans hfe1, by rw [hh.encs, hl1], by rw [hh.encs]; exact hmix⟩)
      have e2 : s2.encs = s1.encs := h2.encs
      refine wp_mono (ih (s := s2) (i + 1) hio2 (by rw [hk2, hk1]; omega) (by rw [e2, hk2, hk1, hl1]; exact henc) ?_) ?_
        (fun e s' ⟨h1, h5⟩ => ⟨h1, by rw [h5.k, hk2, hk1], h5.front.trans (h2.front.trans hf1),
          h5.fence.trans (h2.fence.trans hfe1), by rw [h5.len, e2, hl1], fun j e he => ?_⟩)
      rotate_right
      · rcases h5.each j e he with h6 | ⟨x, r, d', o', h6, h7, h8, h9⟩
        · exact hmix j e (by rw [← e2]; exact h6)
        · exact .inr ⟨x + 1, r, d', o', by omega, by simpa using h7, by rw [← hk1, ← hk2]; exact h8, h9⟩
      · intro j r d o' hj ho' hc
        rw [hk2, hk1] at ho'
        exact h (j + 1) r d o' (by simpa using hj) (by rw [← ho']; congr 1; omega) hc
      · rintro _ s3 ⟨hio3, hr⟩
        refine ⟨hio3, hr.k.trans (hk2.trans hk1), hr.front.trans (h2.front.trans hf1), hr.fence.trans (h2.fence.trans hfe1),
          by rw [hr.len, e2, hl1], fun j hj => ?_, ?_⟩
        · rw [hr.before j (by omega), e2, hne1 j (by omega)]
        · intro j r d' o' hj ho'
          cases j with
          | zero =>
            simp only [List.getElem?_cons_zero, Option.some.injEq, Prod.mk.injEq] at hj
            obtain ⟨rfl, rfl⟩ := hj
            rw [Nat.add_zero, ho] at ho'
            obtain rfl : o = o' := by simpa using ho'
            have hb := hr.before i (by omega)
            rw [e2] at hb
            refine ⟨fun hc => ?_, fun hc => ?_⟩
            · rw [Nat.add_zero, hb]; exact hc1 hc
            · obtain ⟨e, h5, h6⟩ := hg1 hc
              exact ⟨e, by rw [Nat.add_zero, hb]; exact h5, h6⟩
          | succ j =>
            have hij : i + (j + 1) = i + 1 + j := by omega
            rw [hij] at ho' ⊢
            have hj' : (if reset then resetAll res else res)[j]? = some (r, d') := by simpa using hj
            obtain ⟨h5, h6⟩ := hr.each j r d' o' hj' (by rw [hk2, hk1]; exact ho')
            refine ⟨fun hc => ?_, h6⟩
            rw [h5 hc, e2, hne1 _ (by omega)]
    split
    · next hc =>
      rw [wp_bind, wp_pure]
      exact hgo s hio rfl rfl rfl rfl (fun _ _ => rfl) (fun _ => rfl) (fun h => by rw [hc] at h; simp at h)
    · next hc =>
      have hc' : o.isConstant = false := by simpa using hc
      obtain ⟨h1, h2⟩ := h 0 reform d1 o (by simp) (by simpa using ho) hc'
      rw [wp_bind]
      refine wp_mergeReform rebase h1 h2 fun e he => ?_
      rw [wp_bind, wp_getS, wp_bind]
      have hlt' : i < s.encs.length := by omega
      rw [List.getElem?_eq_getElem hlt', wp_unwrap_some, wp_bind, wp_modifyS]
      refine hgo _ hio rfl rfl rfl (by simp) (fun j hj => ?_) (fun h => by rw [hc'] at h; simp at h) (fun _ => ⟨e, ?_, he⟩)
      · simp only
        rw [List.getElem?_set_ne (by omega)]
      · simp only
        rw [List.getElem?_set_self hlt']

/-! ## The whole of core boosting -/

/-- The solver after its oracle has been reset. -/
def resetSt (cnf : List Clause) (s : Slv P C) : Slv P C := { s with k := { s.k with
  db := cnf, ostate := .input, conflLimited := false, vm := s.k.vm.forgetFrom (s.k.vm.maxEncVar + 1) } }

theorem wp_resetOracle {Q : Unit → Slv P C → Prop} {cnf : List Clause} (hst : s.k.opts.storeCnf = true)
    (hcnf : s.k.origCnf = some cnf) (hio : IoInv env n s.io)
    (hQ : ∀ io, IoInv env n io → Q () { s with
      io := io
      k := { s.k with db := cnf, ostate := .input, conflLimited := false, vm := s.k.vm.forgetFrom (s.k.vm.maxEncVar + 1) } }) :
    wp env (resetOracle true) Q (fun e s' => IoStopQ env n e s' ∧ (Same s s' ∨ Same (resetSt cnf s) s')) s := by
  unfold resetOracle logRoutineStart logRoutineEnd
  rw [wp_bind, wp_getS]
  simp only [hst, if_true]
  rw [wp_bind]
  refine wp_logEvent _ hio (fun s1 h1 hk1 hio1 => ?_) (fun e s' hs h => ⟨h, .inl hs⟩)
  rw [wp_bind, wp_pure, wp_bind, hcnf, wp_unwrap_some, wp_bind, wp_modifyS]
  have e1 := h1.setIo hk1
  refine wp_logEvent _ (by exact hio1) (fun s2 h2 hk2 hio2 => ?_) (fun e s' hs h => ⟨h, .inr ?_⟩)
  · have e2 := h2.setIo hk2
    rw [e2]
    rw [e1]
    exact hQ _ hio2
  · refine Same.trans (s' := { resetSt cnf s with io := s1.io }) ⟨rfl, rfl, rfl, rfl⟩ ?_
    rw [e1] at hs
    exact hs

/-- State after core boosting: the search can be started, the encodings start at the lower bounds, which are the minima
of the objectives. -/
structure Boosted (inst : Instance) (opts : KernelOptions) (bcg : Assignment → Clause) (s0 s : Slv P C) : Prop where
  rel : LbOnly inst.objs s.k.objs
  core : Core (pbAt inst opts bcg s) (fun _ => True) [] s
  frame : Frame s0 s
  tops : ∀ (j : Nat) (e : ObjEnc P C) (o : Objective), s.encs[j]? = some e → s.k.objs[j]? = some o → e.top ≤ maxCost o
  lower : ∀ o ∈ s.k.objs, ∀ t, (problem inst).Feasible t → o.lowerBound ≤ icost o t
  attained : ∀ o ∈ s.k.objs, (o.isConstant = false ∨ ∃ t, (problem inst).Feasible t) →
    ∃ t, (problem inst).Feasible t ∧ icost o t = o.lowerBound
  offset : ∀ (j : Nat) (e : ObjEnc P C) (o : Objective), s.encs[j]? = some e → s.k.objs[j]? = some o →
    e.isConstant = false → e.offset = o.lowerBound
  const : ∀ (j : Nat) (e : ObjEnc P C) (o : Objective), s.encs[j]? = some e → s.k.objs[j]? = some o →
    e.isConstant = true → ∀ t, (problem inst).Feasible t → icost o t = o.lowerBound
  encConst : ∀ (j : Nat) (e : ObjEnc P C) (o : Objective), s.encs[j]? = some e → inst.objs[j]? = some o →
    o.isConstant = true → e = .constant

theorem tops_le {encs : List (ObjEnc P C)} {os : List Objective} (hlen : encs.length = os.length)
    (h : ∀ (j : Nat) (e : ObjEnc P C) (o : Objective), encs[j]? = some e → os[j]? = some o → e.top ≤ maxCost o) :
    (encs.map ObjEnc.top).sum ≤ (os.map maxCost).sum := by
  induction encs generalizing os with
  | nil => simp
  | cons e encs ih =>
    cases os with
    | nil => simp at hlen
    | cons o os =>
      simp only [List.map_cons, List.sum_cons]
      have h1 := h 0 e o (by simp) (by simp)
      have h2 := ih (os := os) (by simpa using hlen) (fun j e o he ho => h (j + 1) e o (by simpa using he) (by simpa using ho))
      omega

theorem Ready.boosted {s0 : Slv P C} {res : List (Reform × D)} (h : Ready inst opts bcg env s0 res s)
    (hr : Replaced (pbAt inst opts bcg s) 0 res s s') (hlen : res.length = inst.objs.length)
    (hel : s.encs.length = inst.objs.length) (hfront : s0.front = [])
    (hconst : ∀ (j : Nat) (e : ObjEnc P C) (o : Objective), s0.encs[j]? = some e → inst.objs[j]? = some o →
      o.isConstant = true → e = .constant) : Boosted inst opts bcg s0 s' := by
  have hl := h.rel.length
  have hpb := pbLb (inst := inst) (opts := opts) (bcg := bcg) h.rel
  have hfs : ∀ t, (problem inst).Feasible t ↔ (pbAt inst opts bcg s).Sol t := fun t => feasible_iff (opts := opts) (bcg := bcg) t
  -- the entry for an objective
  have hentry : ∀ (j : Nat) (o : Objective), s.k.objs[j]? = some o → ∃ (r : Reform) (d : D), res[j]? = some (r, d) ∧ Entry (pbAt inst opts bcg s) o r d s := by
    intro j o ho
    have hlt : j < res.length := by rw [hlen, ← hl]; exact (List.getElem?_eq_some_iff.1 ho).1
    exact ⟨res[j].1, res[j].2, List.getElem?_eq_getElem hlt, h.each j _ _ o (List.getElem?_eq_getElem hlt) ho⟩
  -- an encoding is either that of a constant objective or over a database
  have henc : ∀ (j : Nat) (e : ObjEnc P C) (o : Objective), s'.encs[j]? = some e → s.k.objs[j]? = some o →
      (o.isConstant = true ∧ e = .constant) ∨ ∃ (r : Reform) (d : D), res[j]? = some (r, d) ∧ Entry (pbAt inst opts bcg s) o r d s ∧
        GoodEnc (pbAt inst opts bcg s) o d r.offset e := by
    intro j e o he ho
    obtain ⟨r, d, h1, h2⟩ := hentry j o ho
    obtain ⟨h3, h4⟩ := hr.each j r d o h1 (by rw [Nat.zero_add]; exact ho)
    rw [Nat.zero_add] at h3 h4
    cases hc : o.isConstant with
    | true =>
      left
      refine ⟨rfl, ?_⟩
      obtain ⟨o1, ho1, he1⟩ := h.rel.get ho
      refine hconst j e o1 ?_ ho1 (by rw [← lb_isConstant he1]; exact hc)
      rw [← h.encs, ← h3 hc]; exact he
    | false =>
      right
      obtain ⟨e', h5, h6⟩ := h4 hc
      obtain rfl : e = e' := by rw [he] at h5; simpa using h5
      exact ⟨r, d, h1, h2, h6⟩
  have hci : ∀ o : Objective, o.isConstant = true → ∀ t, icost o t = 0 := by
    intro o hc t
    have hit : o.iter = [] := by cases o <;> simp_all [Objective.isConstant, Objective.iter]
    unfold icost; rw [hit]; rfl
  have hk := hr.k
  have hinv : DBInv (pbAt inst opts bcg s) (fun _ => True) s' := by
    refine ⟨by rw [hk]; rfl, ?_, ?_, ?_, ?_, ?_, ?_, ?_, ?_, ?_, ?_, ?_⟩
    · rw [hr.len, hel]; exact hl.symm
    · rw [hk]; exact h.next
    · rw [hk, h.origVar]; rfl
    · rw [hk, h.encVar]; rfl
    · rw [hk]; exact h.dbVars
    · intro i e he
      have hlt : i < s.k.objs.length := by
        rw [hl, ← hel, ← hr.len]; exact (List.getElem?_eq_some_iff.1 he).1
      rcases henc i e _ he (List.getElem?_eq_getElem hlt) with ⟨-, rfl⟩ | ⟨r, d, -, h2, h3⟩
      · trivial
      · rw [hk]; exact h3.below _ h.next h2.below
    · intro i e o he ho
      rcases henc i e o he ho with ⟨hc, rfl⟩ | ⟨r, d, -, h2, h3⟩
      · exact ⟨fun t _ => Nat.zero_le _, fun _ => ⟨0, fun t _ => hci o hc t⟩⟩
      · exact h3.encFor
    · intro m hm
      rw [hk] at hm
      exact ⟨h.db m hm, trivial⟩
    · intro m hm i e o he ho
      rw [hk] at hm
      rcases henc i e o he ho with ⟨hc, rfl⟩ | ⟨r, d, -, h2, h3⟩
      · trivial
      · exact h3.sound m (h.db m hm) (h2.sound m hm)
    · intro t ht _
      obtain ⟨m, h1, h2, h3⟩ := h.ext t ht
      refine ⟨m, h1, by rw [hk]; exact h2, ?_⟩
      intro i e o he ho
      rw [hk] at ho
      rcases henc i e o he ho with ⟨hc, rfl⟩ | ⟨r, d, h4, h5, h6⟩
      · trivial
      · exact h6.exact m (h.db m h2) (h3 _ (List.mem_of_getElem? h4))
    · rw [hk]; exact h.lim
  have hob : s'.k.objs = s.k.objs := by rw [hk]
  refine ⟨by rw [hob]; exact h.rel, ⟨?_, ⟨?_, ?_⟩, ?_, ?_⟩, ?_, ?_, ?_, ?_, ?_, ?_, ?_⟩
  · unfold pbAt; rw [hob]; exact hinv
  · intro t _ h; exact absurd trivial h
  · intro t _ _ c hc; simp at hc
  · rw [hr.front, h.frame.front, hfront]; exact ⟨.nil, .nil⟩
  · rw [hr.front, h.frame.front, hfront]; exact .nil
  · exact ⟨hr.front.trans h.frame.front, by rw [hk]; exact h.frame.opts, by rw [hk]; exact h.frame.bcg,
      by rw [hk]; exact h.frame.origCnf, hr.fence.trans h.frame.fence⟩
  · rw [hob]
    intro j e o he ho
    rcases henc j e o he ho with ⟨hc, rfl⟩ | ⟨r, d, -, h2, h3⟩
    · exact Nat.zero_le _
    · exact h3.top
  · intro o ho t ht
    rw [hob] at ho
    obtain ⟨j, hj⟩ := List.mem_iff_getElem?.1 ho
    obtain ⟨r, d, -, h2⟩ := hentry j o hj
    rw [h2.bound]
    exact h2.lower t ((hfs t).1 ht)
  · intro o ho hsat
    rw [hob] at ho
    obtain ⟨j, hj⟩ := List.mem_iff_getElem?.1 ho
    obtain ⟨r, d, -, h2⟩ := hentry j o hj
    obtain ⟨t, h3, h4⟩ := h2.opt (hsat.imp id fun ⟨t0, ht0⟩ => ⟨t0, (hfs t0).1 ht0⟩)
    exact ⟨t, (hfs t).2 h3, by rw [h2.bound]; exact h4⟩
  · intro j e o he ho hc
    rw [hob] at ho
    rcases henc j e o he ho with ⟨_, rfl⟩ | ⟨r, d, -, h2, h3⟩
    · simp [ObjEnc.isConstant] at hc
    · rw [h3.offset hc, h2.bound]
  · intro j e o he ho hc t ht
    rw [hob] at ho
    rcases henc j e o he ho with ⟨hoc, rfl⟩ | ⟨r, d, -, h2, h3⟩
    · obtain ⟨r, d, -, h2⟩ := hentry j o ho
      have h4 := h2.lower t ((hfs t).1 ht)
      rw [hci o hoc] at h4 ⊢
      rw [h2.bound]; omega
    · rw [h3.const hc t ((hfs t).1 ht), h2.bound]
  · intro j e o he ho hc
    have hlt : j < s.k.objs.length := by rw [hl]; exact (List.getElem?_eq_some_iff.1 ho).1
    obtain ⟨o1, ho1, he1⟩ := h.rel.get (List.getElem?_eq_getElem hlt)
    obtain rfl : o = o1 := by rw [ho] at ho1; simpa using ho1
    obtain ⟨r, d, h1, -⟩ := hentry j _ (List.getElem?_eq_getElem hlt)
    have h3 := (hr.each j r d _ h1 (by rw [Nat.zero_add]; exact List.getElem?_eq_getElem hlt)).1
      (by rw [lb_isConstant he1]; exact hc)
    rw [Nat.zero_add] at h3
    exact hconst j e o (by rw [← h.encs, ← h3]; exact he) ho hc

/-- What core boosting needs of the state of the solver. -/
structure Fine (inst : Instance) (opts : KernelOptions) (bcg : Assignment → Clause) (s : Slv P C) : Prop where
  rel : LbOnly inst.objs s.k.objs
  inv : DBInv (pbAt inst opts bcg s) (fun _ => True) s
  tops : ∀ (j : Nat) (e : ObjEnc P C) (o : Objective), s.encs[j]? = some e → s.k.objs[j]? = some o → e.top ≤ maxCost o
  value : ∀ (j : Nat) (e : ObjEnc P C) (o : Objective), s.encs[j]? = some e → s.k.objs[j]? = some o →
    e.isConstant = true → ∃ c, ∀ t, (problem inst).Feasible t → icost o t = c
  base : IoBase inst.objs.length s.io
  front : s.front = []
  kopts : s.k.opts = opts
  const : ∀ (j : Nat) (e : ObjEnc P C) (o : Objective), s.encs[j]? = some e → inst.objs[j]? = some o →
      o.isConstant = true → e = .constant
  cnf : opts.storeCnf = true → s.k.origCnf = some inst.clauses
  lims : LimsPos s.io.lims
  calls : s.io.stats.nSolveCalls = 0

theorem initEncs_const (reserve : Bool) (os : List Objective) (n : Nat) (j : Nat) (e : ObjEnc P C) (o : Objective)
    (he : (initEncs reserve os n).1[j]? = some e) (ho : os[j]? = some o) (hc : o.isConstant = true) : e = .constant := by
  induction os generalizing n j with
  | nil => simp at ho
  | cons a os ih =>
    unfold initEncs at he
    cases j with
    | zero =>
      simp only [List.getElem?_cons_zero, Option.some.injEq] at he ho
      subst ho
      cases a <;> simp_all [Objective.isConstant, initEnc]
    | succ j => exact ih _ j (by simpa using he) (by simpa using ho)

theorem fresh_fine {s : Slv P C} (hwf : WellFormed inst) (h : Fresh inst bcg opts s) : Fine inst opts bcg s := by
  have ok := fresh_ok hwf h
  have hobj : s.k.objs = inst.objs := ok.core.inv.objs
  have hpb : pbAt inst opts bcg s = inst.pb opts bcg := by unfold pbAt Instance.withObjs; rw [hobj]
  refine ⟨by rw [hobj]; exact LbOnly.refl _, by rw [hpb]; exact ok.core.inv, ?_, ?_, ok.base, ok.front, ok.opts,
    ?_, ?_, ?_, ?_⟩
  · intro j e o he ho
    have := congrArg (·[j]?) ok.tops
    unfold encTops at this
    simp only [List.getElem?_map] at this
    rw [he, ← hobj, ho, Option.map_some, Option.map_some, Option.some.injEq] at this
    exact Nat.le_of_eq this
  · intro j e o he ho hc
    rw [hobj] at ho
    exact ⟨0, fun t ht => ok.zero j e o he ho hc t ((feasible_iff (opts := opts) (bcg := bcg) t).1 ht)⟩
  all_goals
    obtain ⟨s0, lg, h0, -, rfl⟩ := h
    unfold Slv.new Kern.new at h0
    cases hv : inst.vm.maxVar with
    | none => rw [hv] at h0; simp at h0
    | some v =>
      rw [hv] at h0
      simp only [Option.map_some, Option.some.injEq] at h0
      subst h0
      unfold Slv.init
      first
        | exact fun j e o he ho hc => initEncs_const _ _ _ j e o he ho hc
        | (intro h; simp [h])
        | (constructor <;> simp [Limits.none])

theorem Fine.binv {s : Slv P C} (h : Fine inst opts bcg s) : BInv inst opts bcg env s ([] : List (Reform × D)) s := by
  refine ⟨h.rel, empty_cg h.inv (fun _ => trivial), h.inv.unlimited, ⟨h.base, fun _ => h.lims⟩, Frame.refl _, rfl,
    fun j r d o hj => by simp at hj, by simp, ?_⟩
  intro t ht
  obtain ⟨m, h1, h2⟩ := h.inv.ext t ht trivial
  exact ⟨m, h1, h2, by simp⟩

/-- State after core boosting that ended early: some encodings may have been replaced, and the limit on conflicts may
still be set. -/
structure Left (inst : Instance) (opts : KernelOptions) (bcg : Assignment → Clause) (s0 s : Slv P C) : Prop where
  rel : LbOnly inst.objs s.k.objs
  inv : DBInv (pbAt inst opts bcg s) (fun _ => True) (unl s)
  frame : Frame s0 s
  tops : ∀ (j : Nat) (e : ObjEnc P C) (o : Objective), s.encs[j]? = some e → s.k.objs[j]? = some o → e.top ≤ maxCost o
  const : ∀ (j : Nat) (e : ObjEnc P C) (o : Objective), s.encs[j]? = some e → s.k.objs[j]? = some o →
    e.isConstant = true → ∃ c, ∀ t, (problem inst).Feasible t → icost o t = c
  encConst : ∀ (j : Nat) (e : ObjEnc P C) (o : Objective), s.encs[j]? = some e → inst.objs[j]? = some o →
    o.isConstant = true → e = .constant
  lim : s.k.conflLimited = true → s.k.opts.coreExhaustion = true ∨ s.k.opts.coreMinimization = true

theorem LbOnly.maxCosts {os : List Objective} (h : LbOnly inst.objs os) : os.map maxCost = inst.objs.map maxCost := by
  apply List.ext_getElem?
  intro j
  simp only [List.getElem?_map]
  cases ho : os[j]? with
  | none =>
    have : inst.objs[j]? = none := by
      rw [List.getElem?_eq_none_iff] at ho ⊢
      have := h.length
      omega
    rw [this]
  | some o =>
    obtain ⟨o', ho', he⟩ := h.get ho
    rw [ho', Option.map_some, Option.map_some, lb_maxCost he]

theorem Fine.constOrig {s0 : Slv P C} (h : Fine inst opts bcg s0) {os : List Objective} (hl : LbOnly inst.objs os)
    (j : Nat) (e : ObjEnc P C) (o : Objective) (he : s0.encs[j]? = some e) (ho : os[j]? = some o)
    (hc : e.isConstant = true) : ∃ c, ∀ t, (problem inst).Feasible t → icost o t = c := by
  obtain ⟨o', ho', hoo⟩ := hl.get ho
  have hlt : j < s0.k.objs.length := by rw [h.rel.length]; exact (List.getElem?_eq_some_iff.1 ho').1
  obtain ⟨o1, ho1, hoo1⟩ := h.rel.get (List.getElem?_eq_getElem hlt)
  obtain rfl : o' = o1 := by rw [ho'] at ho1; simpa using ho1
  obtain ⟨c, hv⟩ := h.value j e _ he (List.getElem?_eq_getElem hlt) hc
  exact ⟨c, fun t ht => by rw [lb_icost hoo, ← lb_icost hoo1, hv t ht]⟩

theorem Fine.topOrig {s0 : Slv P C} (h : Fine inst opts bcg s0) {os : List Objective} (hl : LbOnly inst.objs os)
    (j : Nat) (e : ObjEnc P C) (o : Objective) (he : s0.encs[j]? = some e) (ho : os[j]? = some o) : e.top ≤ maxCost o := by
  obtain ⟨o', ho', hoo⟩ := hl.get ho
  have hlt : j < s0.k.objs.length := by rw [h.rel.length]; exact (List.getElem?_eq_some_iff.1 ho').1
  obtain ⟨o1, ho1, hoo1⟩ := h.rel.get (List.getElem?_eq_getElem hlt)
  obtain rfl : o' = o1 := by rw [ho'] at ho1; simpa using ho1
  rw [lb_maxCost hoo, ← lb_maxCost hoo1]
  exact h.tops j e _ he (List.getElem?_eq_getElem hlt)

theorem Usable.left {s0 : Slv P C} (h : Fine inst opts bcg s0) (hl : LbOnly inst.objs s.k.objs)
    (hu : Usable (pbAt inst opts bcg s) s0 s) : Left inst opts bcg s0 s where
  rel := hl
  inv := hu.inv
  frame := hu.frame
  tops := fun j e o he ho => h.topOrig hl j e o (by rw [← hu.encs]; exact he) ho
  const := fun j e o he ho hc => h.constOrig hl j e o (by rw [← hu.encs]; exact he) ho hc
  encConst := fun j e o he ho hc => h.const j e o (by rw [← hu.encs]; exact he) ho hc
  lim := hu.lim

theorem Boosted.left {s0 : Slv P C} (h : Boosted inst opts bcg s0 s) : Left inst opts bcg s0 s where
  rel := h.rel
  inv := by rw [unl_of h.core.inv.unlimited]; exact h.core.inv
  frame := h.frame
  tops := h.tops
  const := fun j e o he ho hc => ⟨_, h.const j e o he ho hc⟩
  encConst := h.encConst
  lim := by rw [h.core.inv.unlimited]; simp

theorem Left.same {s0 : Slv P C} (h : Left inst opts bcg s0 s) (hs : Same s s') : Left inst opts bcg s0 s' := by
  have hu : Usable (pbAt inst opts bcg s) s s' :=
    (⟨h.inv, Frame.refl _, rfl, h.lim⟩ : Usable (pbAt inst opts bcg s) s s).same hs
  refine ⟨by rw [hs.objs]; exact h.rel, ?_, h.frame.trans hu.frame, ?_, ?_, ?_, hu.lim⟩
  · unfold pbAt
    rw [hs.objs]
    exact hu.inv
  · rw [hs.encs, hs.objs]
    exact h.tops
  · rw [hs.encs, hs.objs]
    exact h.const
  · rw [hs.encs]
    exact h.encConst

/-- State in which some of the encodings can be replaced by ones over the databases in `res`. -/
structure Mix (inst : Instance) (opts : KernelOptions) (bcg : Assignment → Clause) (s0 : Slv P C)
    (res : List (Reform × D)) (s : Slv P C) : Prop where
  rel : LbOnly inst.objs s.k.objs
  inv : DBInv (pbAt inst opts bcg s) (fun _ => True) s
  frame : Frame s0 s
  encs : s.encs = s0.encs
  each : ∀ (j : Nat) (r : Reform) (d : D) (o : Objective), res[j]? = some (r, d) → s.k.objs[j]? = some o →
    Entry (pbAt inst opts bcg s) o r d s
  ext : ∀ t, (pbAt inst opts bcg s).Sol t → ∃ m, AgreeBelow (pbAt inst opts bcg s).n0 t m ∧ XModel s m ∧
    ∀ p ∈ res, Exact p.2 m

theorem BInv.mix {s0 : Slv P C} {res : List (Reform × D)} (h : BInv inst opts bcg env s0 res s) :
    Mix inst opts bcg s0 res s where
  rel := h.rel
  inv := by
    have := h.cg.inv
    rwa [unl_of h.lim] at this
  frame := h.frame
  encs := h.encs
  each := h.each
  ext := h.ext

theorem Mix.same {s0 : Slv P C} {res : List (Reform × D)} (h : Mix inst opts bcg s0 res s) (hs : Same s s')
    (hk : s'.k = s.k) : Mix inst opts bcg s0 res s' := by
  have e := hs.setIo hk
  have hi := h.inv.same hs
  rw [e] at hi ⊢
  refine ⟨h.rel, hi, ⟨h.frame.front, h.frame.opts, h.frame.bcg, h.frame.origCnf, h.frame.fence⟩, h.encs, ?_, ?_⟩
  · intro j r d o h1 h2
    have := h.each j r d o h1 h2
    exact ⟨this.below, this.inputs, this.sound, this.merge, this.shape, this.lower, this.opt, this.bound⟩
  · intro t ht
    obtain ⟨m, h1, h2, h3⟩ := h.ext t ht
    exact ⟨m, h1, ⟨h2.db, h2.exact⟩, h3⟩

theorem Mix.left {s0 : Slv P C} {res : List (Reform × D)} (hf : Fine inst opts bcg s0) (h : Mix inst opts bcg s0 res s) :
    Left inst opts bcg s0 s :=
  Usable.left hf h.rel ⟨by rw [unl_of h.inv.unlimited]; exact h.inv, h.frame, h.encs, by rw [h.inv.unlimited]; simp⟩

/-- The encodings of the solver do not rely on clauses in the oracle yet. -/
def Pristine (inst : Instance) (s : Slv P C) : Prop :=
  ∀ (j : Nat) (e : ObjEnc P C) (o : Objective), s.encs[j]? = some e → inst.objs[j]? = some o →
    e.Below (inst.vm.maxEncVar + 1) ∧ ∀ m, (problem inst).Feasible m → e.Sound o m ∧ e.Exact o m

theorem Pristine.same (h : Pristine inst s) (hs : s'.encs = s.encs) : Pristine inst s' := by
  unfold Pristine
  rw [hs]
  exact h

theorem Pristine.at (h : Pristine inst s) {os : List Objective} (hl : LbOnly inst.objs os) {j : Nat} {e : ObjEnc P C}
    {o : Objective} (he : s.encs[j]? = some e) (ho : os[j]? = some o) :
    e.Below (inst.vm.maxEncVar + 1) ∧ ∀ m, (problem inst).Feasible m → e.Sound o m ∧ e.Exact o m := by
  obtain ⟨o', ho', hoo⟩ := hl.get ho
  obtain ⟨h1, h2⟩ := h j e o' he ho'
  exact ⟨h1, fun m hm => ⟨ObjEnc.sound_icost (lb_icost hoo m) (h2 m hm).1, ObjEnc.exact_icost (lb_icost hoo m) (h2 m hm).2⟩⟩

theorem initEncs_pristine (os : List Objective) (n n' j : Nat) (e : ObjEnc P C) (o : Objective)
    (he : (initEncs false os n).1[j]? = some e) (ho : os[j]? = some o) (hb : ∀ p ∈ o.iter, p.1.var < n') :
    e.Below n' ∧ ∀ m, e.Sound o m ∧ e.Exact o m := by
  induction os generalizing n j with
  | nil => simp at ho
  | cons a os ih =>
    unfold initEncs at he
    cases j with
    | zero =>
      simp only [List.getElem?_cons_zero, Option.some.injEq] at he ho
      subst ho he
      cases a with
      | weighted off lits i b =>
        refine ⟨LawfulUbEnc.below_ofLits (E := P) lits n' hb, fun m => ⟨⟨LawfulUbEnc.sound_ofLits _ _, ?_⟩,
          LawfulUbEnc.exact_ofLits _ _, ?_⟩⟩ <;>
        simp [icost, Objective.iter, LawfulUbEnc.val_ofLits]
      | unweighted off w lits i b =>
        refine ⟨LawfulUbEnc.below_ofLits (E := C) (lits.map fun l => (l, 1)) n' hb, fun m =>
          ⟨⟨LawfulUbEnc.sound_ofLits _ _, ?_⟩, LawfulUbEnc.exact_ofLits _ _, ?_⟩⟩ <;>
        simp [icost, Objective.iter, LawfulUbEnc.val_ofLits]
      | constant off i b => exact ⟨trivial, fun m => ⟨trivial, trivial⟩⟩
    | succ j => exact ih _ j (by simpa using he) (by simpa using ho)

/-- The encodings of a fresh solver are pristine, unless variables have been reserved for them. -/
theorem fresh_pristine {s : Slv P C} (hwf : WellFormed inst) (h : Fresh inst bcg opts s)
    (hr : opts.reserveEncVars = false) : Pristine inst s := by
  have hw := pb_wf (opts := opts) (bcg := bcg) hwf
  obtain ⟨s0, lg, h0, -, rfl⟩ := h
  unfold Slv.new Kern.new at h0
  cases hv : inst.vm.maxVar with
  | none => rw [hv] at h0; simp at h0
  | some v =>
    rw [hv] at h0
    simp only [Option.map_some, Option.some.injEq] at h0
    subst h0
    intro j e o he ho
    simp only [Slv.init, hr] at he
    obtain ⟨h1, h2⟩ := initEncs_pristine _ _ (inst.vm.maxEncVar + 1) j e o he ho
      (hw.objs o (List.mem_of_getElem? ho))
    exact ⟨h1, fun m _ => h2 m⟩

/-- After a reset of the oracle the encodings fit if they were pristine. -/
theorem Ready.mix {s0 : Slv P C} {res : List (Reform × D)} (hf : Fine inst opts bcg s0) (hp : Pristine inst s0)
    (h : Ready inst opts bcg env s0 res s) (hn : s.k.vm.nextVar = inst.vm.maxEncVar + 1) : Mix inst opts bcg s0 res s := by
  have hfs : ∀ t, (problem inst).Feasible t ↔ (pbAt inst opts bcg s).Sol t := fun t => feasible_iff (opts := opts) (bcg := bcg) t
  have hp' : Pristine inst s := hp.same h.encs
  have hlen : s.encs.length = s.k.objs.length := by
    rw [h.encs, h.rel.length]; exact hf.inv.len.trans hf.rel.length
  refine ⟨h.rel, ⟨rfl, hlen, h.next, by rw [h.origVar]; rfl, by rw [h.encVar]; rfl, h.dbVars, ?_, ?_, fun m hm => ⟨h.db m hm, trivial⟩, ?_, ?_, h.lim⟩,
    h.frame, h.encs, h.each, ?_⟩
  · intro j e he
    have hlt : j < s.k.objs.length := by rw [← hlen]; exact (List.getElem?_eq_some_iff.1 he).1
    rw [hn]
    exact (hp'.at h.rel he (List.getElem?_eq_getElem hlt)).1
  · intro j e o he ho
    obtain ⟨o1, ho1, hoo⟩ := (hf.rel.symm.trans h.rel).get ho
    obtain ⟨h3, h4⟩ := hf.inv.encFor j e o1 (by rw [← h.encs]; exact he) ho1
    refine ⟨fun t ht => by rw [lb_icost hoo]; exact h3 t ht, fun hc => ?_⟩
    obtain ⟨K, hK⟩ := h4 hc
    exact ⟨K, fun t ht => by rw [lb_icost hoo]; exact hK t ht⟩
  · intro m hm j e o he ho
    exact ((hp'.at h.rel he ho).2 m ((hfs m).2 (h.db m hm))).1
  · intro t ht _
    obtain ⟨m, h1, h2, -⟩ := h.ext t ht
    exact ⟨m, h1, h2, fun j e o he ho => ((hp'.at h.rel he ho).2 m ((hfs m).2 (h.db m h2))).2⟩
  · intro t ht
    obtain ⟨m, h1, h2, h3⟩ := h.ext t ht
    exact ⟨m, h1, ⟨h2, fun j e o he ho => ((hp'.at h.rel he ho).2 m ((hfs m).2 (h.db m h2))).2⟩, h3⟩

theorem resetAll_mem {res : List (Reform × D)} {r : Reform} {d : D} (h : (r, d) ∈ resetAll res) (m : Asg) :
    Sound d m ∧ Exact d m := by
  obtain ⟨q, -, h⟩ := List.mem_map.1 h
  cases h
  exact ⟨LawfulTotDb.reset_sound _ _, LawfulTotDb.reset_exact _ _⟩

theorem GoodEnc.pristine {o o' : Objective} {d : D} {off : Nat} {e : ObjEnc P C}
    (h : GoodEnc (pbAt inst opts bcg s) o d off e) (hoo : o.setLowerBound 0 = o'.setLowerBound 0)
    (hd : ∀ m, Sound d m ∧ Exact d m) (hb : Below d (inst.vm.maxEncVar + 1)) :
    e.Below (inst.vm.maxEncVar + 1) ∧ ∀ m, (problem inst).Feasible m → e.Sound o' m ∧ e.Exact o' m := by
  have hfs : ∀ t, (problem inst).Feasible t ↔ (pbAt inst opts bcg s).Sol t := fun t => feasible_iff (opts := opts) (bcg := bcg) t
  refine ⟨h.below _ (Nat.le_refl _) hb, fun m hm => ?_⟩
  exact ⟨ObjEnc.sound_icost (lb_icost hoo.symm m) (h.sound m ((hfs m).1 hm) (hd m).1),
    ObjEnc.exact_icost (lb_icost hoo.symm m) (h.exact m ((hfs m).1 hm) (hd m).2)⟩

/-- Encodings over databases that have been reset are pristine. -/
theorem Mixed.pristine {s0 : Slv P C} {res : List (Reform × D)} (h : Ready inst opts bcg env s0 (resetAll res) s)
    (hn : s.k.vm.nextVar = inst.vm.maxEncVar + 1) (hp : Pristine inst s)
    (hr : Mixed (pbAt inst opts bcg s) 0 (resetAll res) s s') : Pristine inst s' := by
  intro j e o he ho
  rcases hr.each j e he with h1 | ⟨x, r, d, o', h1, h2, h3, -, h4⟩
  · exact hp j e o h1 ho
  · rw [Nat.zero_add] at h1
    subst h1
    obtain ⟨o1, ho1, hoo⟩ := h.rel.get h3
    obtain rfl : o = o1 := by rw [ho] at ho1; simpa using ho1
    refine h4.pristine hoo (resetAll_mem (List.mem_of_getElem? h2)) ?_
    rw [← hn]
    exact (h.each j r d o' h2 h3).below

theorem Replaced.pristine {s0 : Slv P C} {res : List (Reform × D)} (h : Ready inst opts bcg env s0 (resetAll res) s)
    (hf : Fine inst opts bcg s0) (hlen : (resetAll res).length = inst.objs.length)
    (hn : s.k.vm.nextVar = inst.vm.maxEncVar + 1)
    (hr : Replaced (pbAt inst opts bcg s) 0 (resetAll res) s s') : Pristine inst s' := by
  intro j e o he ho
  have hlt : j < s.k.objs.length := by rw [h.rel.length]; exact (List.getElem?_eq_some_iff.1 ho).1
  obtain ⟨o1, ho1, hoo⟩ := h.rel.get (List.getElem?_eq_getElem hlt)
  obtain rfl : o = o1 := by rw [ho] at ho1; simpa using ho1
  have hlt' : j < (resetAll res).length := by rw [hlen]; exact (List.getElem?_eq_some_iff.1 ho).1
  have hj := List.getElem?_eq_getElem hlt'
  obtain ⟨h3, h4⟩ := hr.each j (resetAll res)[j].1 (resetAll res)[j].2 _ hj (by rw [Nat.zero_add]; exact List.getElem?_eq_getElem hlt)
  rw [Nat.zero_add] at h3 h4
  cases hc : (s.k.objs[j]).isConstant with
  | true =>
    rw [h3 hc, h.encs] at he
    rw [hf.const j e o he ho (by rw [← lb_isConstant hoo]; exact hc)]
    exact ⟨trivial, fun _ _ => ⟨trivial, trivial⟩⟩
  | false =>
    obtain ⟨e', h5, h6⟩ := h4 hc
    obtain rfl : e = e' := by rw [he] at h5; simpa using h5
    refine h6.pristine hoo (resetAll_mem (r := (resetAll res)[j].1) (List.mem_of_getElem? hj)) ?_
    rw [← hn]
    exact (h.each j _ _ _ hj (List.getElem?_eq_getElem hlt)).below

/-- Some of the encodings have been replaced. -/
theorem Mix.mixed {s0 : Slv P C} {res : List (Reform × D)} (hf : Fine inst opts bcg s0)
    (h : Mix inst opts bcg s0 res s) (hr : Mixed (pbAt inst opts bcg s) 0 res s s') :
    Left inst opts bcg s0 s' := by
  have hob : s'.k.objs = s.k.objs := by rw [hr.k]
  have hdb : s'.k.db = s.k.db := by rw [hr.k]
  have hvm : s'.k.vm = s.k.vm := by rw [hr.k]
  have hopt : s'.k.opts = s.k.opts := by rw [hr.k]
  have hlim : s'.k.conflLimited = false := by rw [hr.k]; exact h.inv.unlimited
  have hi := h.inv
  have hfs : ∀ t, (problem inst).Feasible t ↔ (pbAt inst opts bcg s).Sol t := fun t => feasible_iff (opts := opts) (bcg := bcg) t
  have henc : ∀ (j : Nat) (e : ObjEnc P C) (o : Objective), s'.encs[j]? = some e → s.k.objs[j]? = some o →
      s.encs[j]? = some e ∨ ∃ (r : Reform) (d : D), (r, d) ∈ res ∧ Entry (pbAt inst opts bcg s) o r d s ∧
        GoodEnc (pbAt inst opts bcg s) o d r.offset e := by
    intro j e o he ho
    rcases hr.each j e he with h1 | ⟨x, r, d, o', h1, h2, h3, -, h4⟩
    · exact .inl h1
    · rw [Nat.zero_add] at h1
      subst h1
      obtain rfl : o = o' := by rw [ho] at h3; simpa using h3
      exact .inr ⟨r, d, List.mem_of_getElem? h2, h.each j r d o h2 ho, h4⟩
  have hlen : s'.encs.length = s.k.objs.length := by rw [hr.len]; exact hi.len
  have hinv : DBInv (pbAt inst opts bcg s) (fun _ => True) s' := by
    refine ⟨hob, by rw [hr.len]; exact hi.len, by rw [hvm]; exact hi.next, by rw [hvm]; exact hi.origVar,
      by rw [hvm]; exact hi.encVar, by rw [hvm, hdb]; exact hi.dbVars, ?_, ?_, by rw [hdb]; exact hi.sound, ?_, ?_, hlim⟩
    · intro i e he
      rw [hvm]
      have hlt : i < s.k.objs.length := by rw [← hlen]; exact (List.getElem?_eq_some_iff.1 he).1
      rcases henc i e _ he (List.getElem?_eq_getElem hlt) with h1 | ⟨r, d, -, h2, h3⟩
      · exact hi.below i e h1
      · exact h3.below _ hi.next h2.below
    · intro i e o he ho
      rcases henc i e o he ho with h1 | ⟨r, d, -, h2, h3⟩
      · exact hi.encFor i e o h1 ho
      · exact h3.encFor
    · intro m hm i e o he ho
      rw [hdb] at hm
      rcases henc i e o he ho with h1 | ⟨r, d, -, h2, h3⟩
      · exact hi.encSound m hm i e o h1 ho
      · exact h3.sound m (hi.sound m hm).1 (h2.sound m hm)
    · intro t ht _
      obtain ⟨m, h1, h2, h3⟩ := h.ext t ht
      refine ⟨m, h1, by rw [hdb]; exact h2.db, ?_⟩
      intro i e o he ho
      rw [hob] at ho
      rcases henc i e o he ho with h4 | ⟨r, d, h4, h5, h6⟩
      · exact h2.exact i e o h4 ho
      · exact h6.exact m (hi.sound m h2.db).1 (h3 _ h4)
  refine ⟨by rw [hob]; exact h.rel, ?_, ?_, ?_, ?_, ?_, by rw [hlim]; simp⟩
  · unfold pbAt
    rw [unl_of hlim, hob]
    exact hinv
  · exact h.frame.trans ⟨hr.front, hopt, by rw [hr.k], by rw [hr.k], hr.fence⟩
  · rw [hob]
    intro j e o he ho'
    rcases henc j e o he ho' with h1 | ⟨r, d, -, h2, h3⟩
    · exact hf.topOrig h.rel j e o (by rw [← h.encs]; exact h1) ho'
    · exact h3.top
  · intro j e o he ho hc
    rw [hob] at ho
    rcases henc j e o he ho with h1 | ⟨r, d, -, h2, h3⟩
    · exact hf.constOrig h.rel j e o (by rw [← h.encs]; exact h1) ho hc
    · exact ⟨_, fun t ht => h3.const hc t ((hfs t).1 ht)⟩
  · intro j e o he ho hc
    rcases hr.each j e he with h1 | ⟨x, r, d, o', -, -, h3, h4, -⟩
    · exact hf.const j e o (by rw [← h.encs]; exact h1) ho hc
    · obtain ⟨o1, ho1, he1⟩ := h.rel.get h3
      obtain rfl : o = o1 := by rw [ho] at ho1; simpa using ho1
      rw [lb_isConstant he1, hc] at h4
      cases h4

/-- The solver can still be used after core boosting that ended early. -/
structure CbLeft (inst : Instance) (opts : KernelOptions) (bcg : Assignment → Clause) (cb : CbOptions) (s0 s : Slv P C) :
    Prop where
  nothing : cb.after = .nothing → Left inst opts bcg s0 s
  reset : cb.after = .reset → Pristine inst s0 → Left inst opts bcg s0 s ∧ Pristine inst s

theorem CbLeft.same {cb : CbOptions} {s0 : Slv P C} (h : CbLeft inst opts bcg cb s0 s) (hs : Same s s') :
    CbLeft inst opts bcg cb s0 s' where
  nothing := fun hn => (h.nothing hn).same hs
  reset := fun hr hp => ⟨(h.reset hr hp).1.same hs, (h.reset hr hp).2.same hs.encs⟩

theorem Left.cbLeft {cb : CbOptions} {s0 : Slv P C} (h : Left inst opts bcg s0 s) (he : s.encs = s0.encs) :
    CbLeft inst opts bcg cb s0 s := ⟨fun _ => h, fun _ hp => ⟨h, hp.same he⟩⟩

/-- How core boosting may stop. -/
def CbStop (inst : Instance) (opts : KernelOptions) (bcg : Assignment → Clause) (env : Env) (fuel : Nat) (cb : CbOptions)
    (s0 : Slv P C) (e : Stop) (s : Slv P C) : Prop :=
  match e with
    | .terminated _ => IoBase inst.objs.length s.io ∧ CbLeft inst opts bcg cb s0 s
    | .error => (IoBase inst.objs.length s.io ∧ CbLeft inst opts bcg cb s0 s) ∧
        (LogFail env ∨ (cb.after = .reset ∧ opts.storeCnf = false))
    | .panic => ¬ ∃ t, (inst.pb opts bcg).Sol t
    | .fuel => (∃ t, (inst.pb opts bcg).Sol t) → fuel ≤ boostBound inst

theorem CbStop.ofIo {cb : CbOptions} {s0 : Slv P C} {e : Stop} (hl : CbLeft inst opts bcg cb s0 s')
    (he : IoStopQ env inst.objs.length e s') : CbStop inst opts bcg env fuel cb s0 e s' := by
  obtain ⟨⟨h1, h2⟩, -, -⟩ := he
  cases e with
  | fuel => exact h2.elim
  | panic => exact h2.elim
  | error => exact ⟨⟨h1, hl⟩, .inl h2⟩
  | terminated t => exact ⟨h1, hl⟩

theorem BStop.cb {cb : CbOptions} {s0 : Slv P C} {e : Stop} (hf : Fine inst opts bcg s0)
    (h : BStop inst opts bcg env fuel (boostBound inst) s0 e s) : CbStop inst opts bcg env fuel cb s0 e s := by
  obtain ⟨h1, h2⟩ := h
  cases e with
  | fuel => exact h2
  | panic => exact h2
  | error => exact ⟨⟨h1, (h2.2.2.left hf h2.2.1).cbLeft h2.2.2.encs⟩, .inl h2.1⟩
  | terminated t => exact ⟨h1, (h2.2.left hf h2.1).cbLeft h2.2.encs⟩

theorem wp_coreBoost (hs : Setting inst bcg opts env) (nd : NoDupCores env) (hlits : NoDupLits inst) {cb : CbOptions}
    (h : Fine inst opts bcg s) :
    wp env (coreBoost D fuel cb) (fun r s' => IoInv env inst.objs.length s'.io ∧
      (r = false → ¬ ∃ t, (problem inst).Feasible t) ∧ (r = true → Boosted inst opts bcg s s' ∧
        (cb.after = .reset → s'.k.db = inst.clauses ∧ s'.k.vm.nextVar = inst.vm.maxEncVar + 1 ∧ Pristine inst s')))
      (CbStop inst opts bcg env fuel cb s) s := by
  unfold coreBoost
  rw [wp_bind, wp_getS]
  simp only [h.calls, ne_eq, not_true_eq_false, if_false]
  rw [wp_bind]
  refine wp_mono (wp_kernelCoreBoost hs nd hlits h.binv) ?_ (fun _ _ h' => h'.cb h)
  rintro r s1 ⟨hio1, hr⟩
  cases r with
  | none =>
    simp only at hr ⊢
    rw [wp_pure]
    exact ⟨hio1, fun _ => hr, by simp⟩
  | some res =>
    simp only at hr ⊢
    obtain ⟨hb, hlen⟩ := hr
    rw [wp_bind]
    refine wp_checkTermination hio1 (fun s2 h2 hk2 hio2 _ => ?_)
      (fun e s' hh he => .ofIo (((hb.usable.left h hb.rel).cbLeft hb.encs).same hh) he)
    have hb2 := hb.same h2 hk2 hio2
    have hrd := hb.ready.same h2 hk2
    have hfin : ∀ s3, IoInv env inst.objs.length s3.io →
        Ready inst opts bcg env s (if decide (cb.after = .reset) then resetAll res else res) s3 →
        (cb.after = .reset → s3.k.db = inst.clauses ∧ s3.k.vm.nextVar = inst.vm.maxEncVar + 1) →
        (cb.after = .nothing → Mix inst opts bcg s res s3) →
        wp env (do
          logRoutineStart "merge encodings"
          replaceEncs cb.rebase (decide (cb.after = .reset)) 0 res
          logRoutineEnd
          M.pure true) (fun r s' => IoInv env inst.objs.length s'.io ∧
            (r = false → ¬ ∃ t, (problem inst).Feasible t) ∧ (r = true → Boosted inst opts bcg s s' ∧
              (cb.after = .reset → s'.k.db = inst.clauses ∧ s'.k.vm.nextVar = inst.vm.maxEncVar + 1 ∧ Pristine inst s')))
          (CbStop inst opts bcg env fuel cb s) s3 := by
      intro s3 hio3 hrd3 hdb3 hbi3
      have hcl3 : CbLeft inst opts bcg cb s s3 := by
        refine ⟨fun hn => (hbi3 hn).left h, fun hrs hp => ?_⟩
        simp only [hrs, decide_true, if_true] at hrd3
        exact ⟨(hrd3.mix h hp (hdb3 hrs).2).left h, hp.same hrd3.encs⟩
      unfold logRoutineStart logRoutineEnd
      rw [wp_bind]
      refine wp_logEvent _ hio3 (fun s4 h4 hk4 hio4 => ?_) (fun e s' hh he => .ofIo (hcl3.same hh) he)
      have hrd4 := hrd3.same h4 hk4
      have hl4 := hrd4.rel.length
      have he4 : s4.encs.length = inst.objs.length := by rw [hrd4.encs]; exact h.inv.len.trans h.rel.length
      have hl' : (if decide (cb.after = .reset) then resetAll res else res).length = inst.objs.length := by
        split
        · simp [resetAll, hlen]
        · exact hlen
      rw [wp_bind]
      refine wp_mono (wp_replaceEncs (pb := pbAt inst opts bcg s4)
        cb.rebase (decide (cb.after = .reset)) res 0 hio4 (by omega) (by rw [he4, hl4]) ?_) ?_
        (fun e s' ⟨he, hm⟩ => .ofIo ⟨fun hn => ?_, fun hrs hp => ?_⟩ he)
      rotate_right 2
      · have hnr : ¬ cb.after = .reset := by rw [hn]; simp
        simp only [hnr, decide_false, Bool.false_eq_true, if_false] at hm
        exact ((hbi3 hn).same h4 hk4).mixed h hm
      · simp only [hrs, decide_true, if_true] at hm hrd4
        have hn4 : s4.k.vm.nextVar = inst.vm.maxEncVar + 1 := by rw [hk4]; exact (hdb3 hrs).2
        exact ⟨(hrd4.mix h hp hn4).mixed h hm, Mixed.pristine hrd4 hn4 (hp.same hrd4.encs) hm⟩
      · intro j r d o hj ho hc
        rw [Nat.zero_add] at ho
        have := hrd4.each j r d o hj ho
        exact ⟨this.merge, this.shape⟩
      · rintro _ s5 ⟨hio5, hr5⟩
        have hb5 := hrd4.boosted hr5 hl' he4 h.front h.const
        have hp5 : cb.after = .reset → Pristine inst s5 := by
          intro hrs
          simp only [hrs, decide_true, if_true] at hr5 hrd4 hl'
          exact Replaced.pristine hrd4 h hl' (by rw [hk4]; exact (hdb3 hrs).2) hr5
        rw [wp_bind]
        refine wp_logEvent _ hio5 (fun s6 h6 hk6 hio6 => ?_)
          (fun e s' hh he => .ofIo (CbLeft.same ⟨fun _ => hb5.left, fun hrs _ => ⟨hb5.left, hp5 hrs⟩⟩ hh) he)
        rw [wp_pure]
        refine ⟨hio6, by simp, fun _ => ?_⟩
        refine ⟨?_, fun hrs => ?_⟩
        rotate_right
        · obtain ⟨h7, h8⟩ := hdb3 hrs
          rw [hk6, hr5.k, hk4]
          exact ⟨h7, h8, (hp5 hrs).same h6.encs⟩
        rw [h6.setIo hk6]
        refine ⟨hb5.rel, ?_, ⟨hb5.frame.front, hb5.frame.opts, hb5.frame.bcg, hb5.frame.origCnf, hb5.frame.fence⟩,
          hb5.tops, hb5.lower, hb5.attained, hb5.offset, hb5.const, hb5.encConst⟩
        have hsm : Same s5 { s5 with io := s6.io } := ⟨rfl, rfl, rfl, rfl⟩
        exact hb5.core.grow hsm.step.toGrow hb5.core.abs (hb5.core.inv.same hsm)
    have hfin' := hfin s2 hio2
    by_cases hrs : cb.after = .reset
    · simp only [hrs, if_true, decide_true] at hfin ⊢
      rw [wp_bind, wp_bind]
      have hst : s2.k.opts.storeCnf = opts.storeCnf := by rw [hrd.frame.opts, h.kopts]
      cases hstore : opts.storeCnf with
      | false =>
        unfold resetOracle
        rw [wp_bind, wp_getS]
        simp only [hst, hstore]
        rw [if_neg (by simp), wp_stop]
        exact ⟨⟨hio2.base, (hb2.mix.left h).cbLeft hb2.encs⟩, .inr ⟨hrs, hstore⟩⟩
      | true =>
      have hcnf : s2.k.origCnf = some inst.clauses := by rw [hrd.frame.origCnf]; exact h.cnf hstore
      have hrr := hrd.reset hs.wf
      have hnv : ∀ {vm : VarManager}, vm = s2.k.vm.forgetFrom (s2.k.vm.maxEncVar + 1) → vm.nextVar = inst.vm.maxEncVar + 1 := by
        rintro _ rfl
        have := hrd.next
        simp only [VarManager.forgetFrom, hrd.encVar]
        omega
      have hcl : CbLeft inst opts bcg cb s (resetSt inst.clauses s2) := by
        refine ⟨fun hn => ?_, fun _ hp => ?_⟩
        · rw [hrs] at hn; cases hn
        exact ⟨(hrr.mix h hp (hnv rfl)).left h, hp.same hrr.encs⟩
      refine wp_mono (wp_resetOracle (hst.trans hstore) hcnf hio2 fun io hio3 => ?_) (fun _ _ h => h)
        (fun _ _ he => .ofIo ?_ he.1)
      · refine wp_checkTermination hio3 (fun s4 h4 hk4 hio4 _ => ?_)
          (fun e s' hh he => .ofIo (hcl.same (Same.trans (s' := { resetSt inst.clauses s2 with io := io }) ⟨rfl, rfl, rfl, rfl⟩ hh)) he)
        refine hfin s4 hio4 (Ready.same ?_ h4 hk4) (fun _ => ?_) (fun hn => by cases hn)
        · exact hrr.setIo
        · rw [hk4]
          exact ⟨rfl, hnv rfl⟩
      · rcases he.2 with hh | hh
        · exact ((hb2.mix.left h).cbLeft hb2.encs).same hh
        · exact hcl.same hh
    · simp only [hrs, if_false, decide_false] at hfin' ⊢
      rw [wp_bind, wp_pure]
      exact hfin' hrd (fun h => h.elim) (fun _ => hb2.mix)

theorem Boosted.prepared {s0 : Slv P C} (h : Boosted inst opts bcg s0 s) (hf : FreshOK inst bcg opts s0)
    (hn : IoBase inst.objs.length s.io) (alg : Alg)
    (hbos : alg = .biOptSat → inst.objs.length = 2 ∧ ConstZero (pbAt inst opts bcg s) s) :
    Prepared alg (inst.withObjs s.k.objs) bcg opts s where
  core := h.core
  fence := h.frame.fence.trans hf.fence
  tops := tops_le h.core.inv.len h.tops
  base := ⟨hn.1.trans h.rel.length.symm, hn.2⟩
  bos := fun ha => ⟨h.rel.length.trans (hbos ha).1, (hbos ha).2⟩
  opts := h.frame.opts.trans hf.opts
  bcg := h.frame.bcg.trans hf.bcg

end Scuttle
