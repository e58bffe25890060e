import Verif.Proof.Reform

/-!
# Rules for core-guided search
-/

set_option linter.unusedSectionVars false

namespace Scuttle

open Spec

variable {P C D : Type} [UbEnc P] [UbEnc C] [LawfulUbEnc P] [LawfulUbEnc C] [TotDb D] [LawfulTotDb D]
variable {env : Env} {s s' s'' : Slv P C} {pb : Pb} {d d' d'' : D} {n : Nat} {o : Objective}

open TotSem (Node Inner cnt Sound Exact Below Inputs Base IsOut)

/-- The state without the limit on conflicts. -/
def unl (s : Slv P C) : Slv P C := { s with k := { s.k with conflLimited := false } }

theorem unl_of (h : s.k.conflLimited = false) : unl s = s := by
  unfold unl
  rw [← h]

/-- Invariant on solver and totalizer database. -/
structure CG (pb : Pb) (d : D) (s : Slv P C) : Prop where
  inv : DBInv pb (fun _ => True) (unl s)
  below : Below d s.k.vm.nextVar
  base : Base d pb.n0
  inputs : Inputs d pb.n0
  sound : ∀ m, cnfEval m s.k.db = true → Sound d m
  ext : ∀ t, pb.Sol t → ∃ m, AgreeBelow pb.n0 t m ∧ XModel s m ∧ Exact d m

/-- Only variables and clauses for outputs of totalizers were added. -/
structure TStep (s : Slv P C) (d : D) (s' : Slv P C) (d' : D) : Prop where
  frame : Frame s s'
  encs : s'.encs = s.encs
  objs : s'.k.objs = s.k.objs
  vm : s'.k.vm = { s.k.vm with nextVar := s'.k.vm.nextVar }
  next : s.k.vm.nextVar ≤ s'.k.vm.nextVar
  db : ∃ cs, s'.k.db = s.k.db ++ cs
  step : DStep d d'
  ext : ∀ m, XModel s m → Exact d m → ∃ m', AgreeBelow s.k.vm.nextVar m m' ∧ XModel s' m' ∧ Exact d' m'

theorem TStep.refl (s : Slv P C) (d : D) : TStep s d s d :=
  ⟨Frame.refl s, rfl, rfl, rfl, Nat.le_refl _, ⟨[], by simp⟩, DStep.refl d, fun m h h' => ⟨m, AgreeBelow.refl _ _, h, h'⟩⟩

theorem TStep.trans (h : TStep s d s' d') (h' : TStep s' d' s'' d'') : TStep s d s'' d'' where
  frame := h.frame.trans h'.frame
  encs := h'.encs.trans h.encs
  objs := h'.objs.trans h.objs
  vm := by rw [h'.vm, h.vm]
  next := Nat.le_trans h.next h'.next
  db := by
    obtain ⟨a, ha⟩ := h.db
    obtain ⟨b, hb⟩ := h'.db
    exact ⟨a ++ b, by rw [hb, ha, List.append_assoc]⟩
  step := h.step.trans h'.step
  ext := fun m h1 h2 => by
    obtain ⟨m', h3, h4, h5⟩ := h.ext m h1 h2
    obtain ⟨m'', h6, h7, h8⟩ := h'.ext m' h4 h5
    exact ⟨m'', h3.trans (h6.mono h.next), h7, h8⟩

theorem Same.tstep (h : Same s s') (d : D) : TStep s d s' d where
  frame := ⟨h.front, h.opts, h.bcg, h.origCnf, h.fence⟩
  encs := h.encs
  objs := h.objs
  vm := by rw [h.vm]
  next := by rw [h.vm]
  db := ⟨[], by rw [h.db]; simp⟩
  step := DStep.refl d
  ext := fun m h1 h2 => ⟨m, AgreeBelow.refl _ _, h1.same h, h2⟩

theorem Same.unl (h : Same s s') : Same (unl s) (unl s') := by
  refine ⟨?_, h.encs, h.front, h.fence⟩
  unfold Scuttle.unl
  simp only
  rw [h.k]

theorem CG.same (h : Same s s') (hi : CG pb d s) : CG pb d s' where
  inv := hi.inv.same h.unl
  below := by rw [h.vm]; exact hi.below
  base := hi.base
  inputs := hi.inputs
  sound := by rw [h.db]; exact hi.sound
  ext := fun t ht => by
    obtain ⟨m, h1, h2, h3⟩ := hi.ext t ht
    exact ⟨m, h1, h2.same h, h3⟩

theorem CG.n0_le (hi : CG pb d s) : pb.n0 ≤ s.k.vm.nextVar := hi.inv.next

theorem CG.sol (hi : CG pb d s) {m : Asg} (hm : cnfEval m s.k.db = true) : pb.Sol m := (hi.inv.sound m hm).1

/-- The limit on conflicts does not matter. -/
theorem CG.setLim (hi : CG pb d s) (b : Bool) : CG pb d { s with k := { s.k with conflLimited := b } } where
  inv := hi.inv
  below := hi.below
  base := hi.base
  inputs := hi.inputs
  sound := hi.sound
  ext := fun t ht => by
    obtain ⟨m, h1, h2, h3⟩ := hi.ext t ht
    exact ⟨m, h1, ⟨h2.db, h2.exact⟩, h3⟩

theorem TStep.setLim (s : Slv P C) (d : D) (b : Bool) : TStep s d { s with k := { s.k with conflLimited := b } } d where
  frame := ⟨rfl, rfl, rfl, rfl, rfl⟩
  encs := rfl
  objs := rfl
  vm := rfl
  next := Nat.le_refl _
  db := ⟨[], by simp⟩
  step := DStep.refl d
  ext := fun m h1 h2 => ⟨m, AgreeBelow.refl _ _, ⟨h1.db, h1.exact⟩, h2⟩

/-- Changes of the database only. -/
theorem CG.dbOnly (hi : CG pb d s) (k : DStep d d') (hb : Below d s.k.vm.nextVar → Below d' s.k.vm.nextVar)
    (hbase : Base d pb.n0 → Base d' pb.n0) (hin : Inputs d pb.n0 → Inputs d' pb.n0)
    (hs : ∀ m, Sound d m → Sound d' m) (hx : ∀ m, Exact d m → Exact d' m) : CG pb d' s ∧ TStep s d s d' := by
  refine ⟨⟨hi.inv, hb hi.below, hbase hi.base, hin hi.inputs, fun m hm => hs m (hi.sound m hm), fun t ht => ?_⟩, ?_⟩
  · obtain ⟨m, h1, h2, h3⟩ := hi.ext t ht
    exact ⟨m, h1, h2, hx m h3⟩
  · exact ⟨Frame.refl s, rfl, rfl, rfl, Nat.le_refl _, ⟨[], by simp⟩, k,
      fun m h h' => ⟨m, AgreeBelow.refl _ _, h, hx m h'⟩⟩

theorem CG.leaf (hi : CG pb d s) {l : Lit} (hl : l.var < pb.n0) :
    CG pb (TotDb.leaf d l).1 s ∧ TStep s d s (TotDb.leaf d l).1 :=
  hi.dbOnly (LawfulTotDb.leaf_step d l) (fun h => LawfulTotDb.leaf_below d l _ h (Nat.lt_of_lt_of_le hl hi.n0_le))
    (LawfulTotDb.leaf_base d l _) (fun h => LawfulTotDb.leaf_inputs d l _ h hl) (LawfulTotDb.leaf_sound d l)
    (LawfulTotDb.leaf_exact d l)

theorem CG.merge (hi : CG pb d s) (cons : List NodeCon) :
    CG pb (TotDb.merge d cons).1 s ∧ TStep s d s (TotDb.merge d cons).1 :=
  hi.dbOnly (LawfulTotDb.merge_step d cons) (LawfulTotDb.merge_below d cons _)
    (LawfulTotDb.merge_base d cons _) (LawfulTotDb.merge_inputs d cons _) (LawfulTotDb.merge_sound d cons)
    (LawfulTotDb.merge_exact d cons)

/-- Adding clauses and variables of totalizers. -/
theorem CG.define (wf : pb.WF) (hi : CG pb d s) {cs : List Clause} {n' : Nat} {k : OracleState}
    (hn : s.k.vm.nextVar ≤ n') (hv : VarsBelow n' cs) (hb : Below d' n') (hbase : Base d' pb.n0) (hin : Inputs d' pb.n0)
    (hs : ∀ m, Sound d m → cnfEval m cs = true → Sound d' m)
    (hx : ∀ m, Exact d m → ∃ m', AgreeBelow s.k.vm.nextVar m m' ∧ cnfEval m' cs = true ∧ Exact d' m')
    (st : DStep d d')
    (he : s' = { s with k := { s.k with db := s.k.db ++ cs, vm := { s.k.vm with nextVar := n' }, ostate := k } }) :
    CG pb d' s' ∧ TStep s d s' d' := by
  have hxm : ∀ m, XModel s m → Exact d m → ∃ m', AgreeBelow s.k.vm.nextVar m m' ∧ XModel s' m' ∧ Exact d' m' := by
    intro m hm hd
    obtain ⟨m', h1, h2, h3⟩ := hx m hd
    refine ⟨m', h1, ⟨?_, ?_⟩, h3⟩
    · subst he
      simp only [cnfEval_append]
      exact ⟨(cnfEval_agree h1 hi.inv.dbVars).symm.trans hm.db, h2⟩
    · subst he
      intro i e o' hei hoi
      have hoi' : pb.objs[i]? = some o' := by rw [← hi.inv.objs]; exact hoi
      refine ObjEnc.exact_agree (hi.inv.below i e hei) h1 ?_ (hm.exact i e o' hei hoi)
      intro p hp
      exact Nat.lt_of_lt_of_le (wf.objs o' (List.mem_of_getElem? hoi') p hp) hi.n0_le
  have hext : ∀ t, pb.Sol t → ∃ m, AgreeBelow pb.n0 t m ∧ XModel s' m ∧ Exact d' m := by
    intro t ht
    obtain ⟨m, h1, h2, h3⟩ := hi.ext t ht
    obtain ⟨m', h4, h5, h6⟩ := hxm m h2 h3
    exact ⟨m', h1.trans (h4.mono hi.n0_le), h5, h6⟩
  have hdb : ∀ m, cnfEval m s'.k.db = true → cnfEval m s.k.db = true ∧ cnfEval m cs = true := by
    intro m hm
    subst he
    simpa only [cnfEval_append] using hm
  refine ⟨⟨⟨?_, ?_, ?_, ?_, ?_, ?_, ?_, ?_, ?_, ?_, ?_, rfl⟩, ?_, hbase, hin, ?_, hext⟩, ?_⟩
  · subst he; exact hi.inv.objs
  · subst he; exact hi.inv.len
  · subst he; exact Nat.le_trans hi.n0_le hn
  · subst he; exact hi.inv.origVar
  · subst he; exact hi.inv.encVar
  · subst he; exact VarsBelow.append (VarsBelow.mono hi.inv.dbVars hn) hv
  · subst he; exact fun i e h => ObjEnc.below_mono (hi.inv.below i e h) hn
  · subst he; exact hi.inv.encFor
  · exact fun m hm => hi.inv.sound m (hdb m hm).1
  · subst he; exact fun m hm => hi.inv.encSound m (hdb m hm).1
  · intro t ht _
    obtain ⟨m, h1, h2, -⟩ := hext t ht
    exact ⟨m, h1, h2.db, h2.exact⟩
  · subst he; exact hb
  · exact fun m hm => hs m (hi.sound m (hdb m hm).1) (hdb m hm).2
  · subst he
    exact ⟨⟨rfl, rfl, rfl, rfl, rfl⟩, rfl, rfl, rfl, hn, ⟨cs, rfl⟩, st, hxm⟩

/-- What is left of the state at the start when core-guided search ends early. The limit on conflicts may still be set. -/
structure Usable (pb : Pb) (s0 s : Slv P C) : Prop where
  inv : DBInv pb (fun _ => True) (unl s)
  frame : Frame s0 s
  encs : s.encs = s0.encs
  lim : s.k.conflLimited = true → s.k.opts.coreExhaustion = true ∨ s.k.opts.coreMinimization = true

theorem Usable.same {s0 : Slv P C} (hu : Usable pb s0 s) (h : Same s s') : Usable pb s0 s' where
  inv := by
    have hs : Same (unl s) (unl s') := by
      refine ⟨?_, h.encs, h.front, h.fence⟩
      unfold unl
      simp only
      rw [h.k]
    exact hu.inv.same hs
  frame := hu.frame.trans ⟨h.front, h.opts, h.bcg, h.origCnf, h.fence⟩
  encs := h.encs.trans hu.encs
  lim := by rw [h.lim, h.opts]; exact hu.lim

theorem Usable.setLim {s0 : Slv P C} (hu : Usable pb s0 s) (b : Bool)
    (h : b = true → s.k.opts.coreExhaustion = true ∨ s.k.opts.coreMinimization = true) :
    Usable pb s0 { s with k := { s.k with conflLimited := b } } :=
  ⟨hu.inv, ⟨hu.frame.front, hu.frame.opts, hu.frame.bcg, hu.frame.origCnf, hu.frame.fence⟩, hu.encs, h⟩

theorem Usable.step {s0 : Slv P C} (hu : Usable pb s0 s) (hi : CG pb d' s') (h : TStep s d s' d')
    (hl : s'.k.conflLimited = true → s.k.opts.coreExhaustion = true ∨ s.k.opts.coreMinimization = true) :
    Usable pb s0 s' :=
  ⟨hi.inv, hu.frame.trans h.frame, h.encs.trans hu.encs, by rw [h.frame.opts]; exact hl⟩

theorem Usable.self (hi : CG pb d s) (hl : s.k.conflLimited = false) : Usable pb s s :=
  ⟨hi.inv, Frame.refl s, rfl, by rw [hl]; simp⟩

/-- How core-guided search stops: it only panics on instances without solution, and otherwise the state can be used. -/
def GStop (pb : Pb) (env : Env) (n fuel N : Nat) (s0 : Slv P C) (e : Stop) (s : Slv P C) : Prop :=
  IoBase n s.io ∧ match e with
    | .terminated _ => Usable pb s0 s
    | .error => LogFail env ∧ Usable pb s0 s
    | .panic => ¬ ∃ t, pb.Sol t
    | .fuel => (∃ t, pb.Sol t) → fuel ≤ N

theorem GStop.ofIo {fuel N : Nat} {s0 : Slv P C} {e : Stop} (hu : Usable pb s0 s) (hsame : Same s s')
    (h : IoStopQ env n e s') : GStop pb env n fuel N s0 e s' := by
  obtain ⟨⟨h1, h2⟩, -, -⟩ := h
  refine ⟨h1, ?_⟩
  have := hu.same hsame
  cases e <;> simp_all

variable {fuel N : Nat} {s0 : Slv P C}

/-- What the rules keep. -/
structure Keeps (pb : Pb) (env : Env) (n : Nat) (s : Slv P C) (d : D) (s' : Slv P C) (d' : D) : Prop where
  cg : CG pb d' s'
  step : TStep s d s' d'
  io : IoInv env n s'.io

theorem Keeps.trans (h : Keeps pb env n s d s' d') (h' : Keeps pb env n s' d' s'' d'') : Keeps pb env n s d s'' d'' :=
  ⟨h'.cg, h.step.trans h'.step, h'.io⟩

theorem Keeps.same (hi : CG pb d s) (h : Same s s') (hio : IoInv env n s'.io) : Keeps pb env n s d s' d :=
  ⟨hi.same h, h.tstep d, hio⟩

/-! ## Building outputs -/

theorem wp_buildOutput {E : Stop → Slv P C → Prop} (wf : pb.WF) (hi : CG pb d s) (hio : IoInv env n s.io) {root i : Nat}
    (hr : Node d root) (hl : i < TotDb.len d root) :
    wp env (buildOutput d root i) (fun r s' => Keeps pb env n s d s' r.2 ∧ s'.k.conflLimited = s.k.conflLimited ∧
      IsOut r.2 root i r.1) E s := by
  unfold buildOutput
  rw [wp_bind, wp_getS]
  simp only
  rw [wp_bind, wp_modifyS, wp_pure]
  obtain ⟨h1, h2⟩ := CG.define (d' := (TotDb.define d root i s.k.vm.nextVar).1) wf hi
    (LawfulTotDb.define_next d root i _ hi.below)
    (LawfulTotDb.define_vars d root i _ hi.below) (LawfulTotDb.define_below d root i _ hi.below)
    (LawfulTotDb.define_base d root i _ _ hi.base hi.below hi.n0_le) (LawfulTotDb.define_inputs d root i _ _ hi.inputs)
    (fun m h h' => LawfulTotDb.define_sound d root i _ m hi.below h h')
    (fun m h => LawfulTotDb.define_exact d root i _ m hi.below h) (LawfulTotDb.define_step d root i _) rfl
  exact ⟨⟨h1, h2, hio⟩, rfl, LawfulTotDb.define_out d root i _ hr hl⟩

theorem CG.cnt_agree (hi : CG pb d s) {t m : Asg} (h : AgreeBelow pb.n0 t m) {id : Nat} (hn : Node d id) :
    cnt d id t = cnt d id m := LawfulTotDb.cnt_local d _ id t m hi.inputs hn h

/-- If the oracle says that an output cannot be false, there are more true inputs in every solution. -/
theorem CG.out_true (hi : CG pb d s) {root i : Nat} {olit : Lit} (hout : IsOut d root i olit)
    (h : ∀ m, cnfEval m s.k.db = true → olit.eval m = true) {t : Asg} (ht : pb.Sol t) : i < cnt d root t := by
  obtain ⟨m, h1, h2, h3⟩ := hi.ext t ht
  rw [hi.cnt_agree h1 (LawfulTotDb.out_node _ _ _ _ hout)]
  exact LawfulTotDb.out_exact _ _ _ _ _ hout h3 (h m h2.db)

theorem clause_sub_single {m : Asg} {core : List Lit} {l : Lit} (h : ∀ x ∈ core, x.not ∈ [l.not])
    (hc : clauseEval m core = true) : l.eval m = true := by
  unfold clauseEval at hc
  obtain ⟨x, hx, hx'⟩ := List.any_eq_true.1 hc
  have := h x hx
  simp only [List.mem_singleton] at this
  have : x = l := by
    cases x; cases l
    simp [Lit.not] at this
    simp [this]
  rw [← this]
  exact hx'

theorem wp_setConflLimit {Q : Unit → Slv P C → Prop} {E : Stop → Slv P C → Prop} (b : Bool)
    (h : Q () { s with k := { s.k with conflLimited := b } }) : wp env (setConflLimit b) Q E s := by
  unfold setConflLimit
  rw [wp_modifyS]
  exact h

theorem wp_exhaustLoop (wf : pb.WF) (orc : OracleOK env) {root : Nat} (g b : Nat) (olit : Lit) (hi : CG pb d s)
    (hio : IoInv env n s.io) (hr : Node d root) (hg : b + g = TotDb.len d root)
    (hb : ∀ t, pb.Sol t → b ≤ cnt d root t) (hu : Usable pb s0 s) (hex : s.k.opts.coreExhaustion = true) :
    wp env (exhaustLoop root [] g b olit d) (fun r s' => Keeps pb env n s d s' r.2.2 ∧ b ≤ r.2.1 ∧
      r.2.1 ≤ TotDb.len d root ∧ (∀ t, pb.Sol t → r.2.1 ≤ cnt d root t) ∧
      (r.2.1 < TotDb.len d root → IsOut r.2.2 root r.2.1 r.1)) (GStop pb env n fuel N s0) s := by
  induction g generalizing b olit d s with
  | zero =>
    unfold exhaustLoop
    rw [wp_pure]
    exact ⟨⟨hi, TStep.refl s d, hio⟩, Nat.le_refl _, by simp only; omega, hb, fun h => by simp only at h; omega⟩
  | succ g ih =>
    unfold exhaustLoop
    rw [wp_bind]
    refine wp_mono (wp_buildOutput wf hi hio hr (i := b) (by omega)) ?_ (fun _ _ h => h)
    rintro ⟨ol, d1⟩ s1 ⟨k1, hl1, ho1⟩
    simp only at k1 ho1 ⊢
    rw [wp_bind]
    refine wp_setConflLimit true ?_
    have k2 : Keeps pb env n s d { s1 with k := { s1.k with conflLimited := true } } d1 :=
      ⟨k1.cg.setLim true, k1.step.trans (TStep.setLim s1 d1 true), k1.io⟩
    have hu2 : Usable pb s0 { s1 with k := { s1.k with conflLimited := true } } :=
      hu.step k2.cg k2.step (fun _ => .inl hex)
    generalize { s1 with k := { s1.k with conflLimited := true } } = s2 at k2 hu2 ⊢
    have hlen : TotDb.len d1 root = TotDb.len d root := k1.step.step.len root hr
    have hcnt : ∀ t, cnt d1 root t = cnt d root t := fun t => k1.step.step.cnt root t hr
    rw [wp_bind]
    have hstop : ∀ s3, Same s2 s3 → IoInv env n s3.io → ∀ r : SolverResult, r ≠ .unsat →
        wp env (if r ≠ .unsat then M.pure (ol, b, d1) else exhaustLoop root [] g (b + 1) ol d1)
          (fun r s' => Keeps pb env n s d s' r.2.2 ∧ b ≤ r.2.1 ∧
            r.2.1 ≤ TotDb.len d root ∧ (∀ t, pb.Sol t → r.2.1 ≤ cnt d root t) ∧
            (r.2.1 < TotDb.len d root → IsOut r.2.2 root r.2.1 r.1)) (GStop pb env n fuel N s0) s3 := by
      intro s3 h3 hio3 r hr'
      rw [if_pos hr', wp_pure]
      exact ⟨k2.trans (Keeps.same k2.cg h3 hio3), Nat.le_refl _, by simp only; omega, hb, fun _ => ho1⟩
    refine wp_solveAssumpsL orc _ k2.io ?_ ?_ ?_ (fun e s' hh h => GStop.ofIo hu2 hh h)
    · intro m s3 h3 _ hio3 _ _
      exact hstop s3 h3 hio3 _ (by simp)
    · intro t lim core s3 _ h3 _ hio3 hc hcl
      rw [if_neg (by simp)]
      have k3 := k2.trans (Keeps.same k2.cg h3 hio3)
      refine wp_mono (ih (b + 1) ol (d := d1) (s := s3) k3.cg hio3 (k1.step.step.node root hr) (by omega) ?_ (hu2.same h3)
        (by rw [k3.step.frame.opts]; exact hex)) ?_ (fun _ _ h => h)
      · intro t ht
        exact k2.cg.out_true ho1 (fun m hm => clause_sub_single (by simpa using hc) (hcl m hm)) ht
      · rintro ⟨ol', b', d'⟩ s4 ⟨k4, h5, h6, h7, h8⟩
        simp only at *
        exact ⟨k3.trans k4, by omega, by omega, fun t ht => by rw [← hcnt]; exact h7 t ht, fun h => h8 (by omega)⟩
    · intro _ s3 h3 hio3
      exact hstop s3 h3 hio3 _ (by simp)

theorem wp_exhaustCore (wf : pb.WF) (orc : OracleOK env) {root : Nat} (hi : CG pb d s)
    (hlim : s.k.conflLimited = false)
    (hio : IoInv env n s.io) (hr : Node d root) (hl : 2 ≤ TotDb.len d root)
    (hb : ∀ t, pb.Sol t → 1 ≤ cnt d root t) (hu : Usable pb s0 s) :
    wp env (exhaustCore root [] d) (fun r s' => Keeps pb env n s d s' r.2.2 ∧ s'.k.conflLimited = false ∧ 1 ≤ r.2.1 ∧
      r.2.1 ≤ TotDb.len d root ∧ (∀ t, pb.Sol t → r.2.1 ≤ cnt d root t) ∧
      (r.2.1 < TotDb.len d root → IsOut r.2.2 root r.2.1 r.1)) (GStop pb env n fuel N s0) s := by
  unfold exhaustCore
  rw [wp_bind, wp_getS]
  split
  · rw [wp_bind]
    refine wp_mono (wp_buildOutput wf hi hio hr (i := 1) (by omega)) ?_ (fun _ _ h => h)
    rintro ⟨ol, d1⟩ s1 ⟨k1, hl1, ho1⟩
    simp only at *
    rw [wp_pure]
    exact ⟨k1, hl1.trans hlim, Nat.le_refl _, by simp only; omega, hb, fun _ => ho1⟩
  · next hex =>
    rw [wp_bind]
    refine wp_logEvent _ hio (fun s1 h1 hk1 hio1 => ?_) (fun e s' hh h => GStop.ofIo hu hh h)
    simp only
    rw [wp_bind]
    refine wp_dbg (by simp; omega) ?_
    rw [wp_bind]
    have k1 := Keeps.same hi h1 hio1
    refine wp_mono (wp_exhaustLoop wf orc (TotDb.len d root - 1) 1 (Lit.pos 0) k1.cg hio1 hr (by omega) hb (hu.same h1)
      (by rw [h1.opts]; simpa using hex)) ?_ (fun _ _ h => h)
    rintro ⟨ol, b, d2⟩ s2 ⟨k2, h3, h4, h5, h6⟩
    rw [wp_bind]
    refine wp_setConflLimit false ?_
    have k3 : Keeps pb env n s1 d { s2 with k := { s2.k with conflLimited := false } } d2 :=
      ⟨k2.cg.setLim false, k2.step.trans (TStep.setLim s2 d2 false), k2.io⟩
    have hl3 : ({ s2 with k := { s2.k with conflLimited := false } } : Slv P C).k.conflLimited = false := rfl
    have hu3 : Usable pb s0 { s2 with k := { s2.k with conflLimited := false } } :=
      (hu.same h1).step k3.cg k3.step (by simp)
    generalize { s2 with k := { s2.k with conflLimited := false } } = s3 at k3 hl3 hu3 ⊢
    rw [wp_bind]
    refine wp_logEvent _ k3.io (fun s4 h7 hk7 hio4 => ?_) (fun e s' hh h => GStop.ofIo hu3 hh h)
    rw [wp_pure]
    exact ⟨(k1.trans k3).trans (Keeps.same k3.cg h7 hio4), by rw [h7.lim]; exact hl3, h3, h4, h5, h6⟩

/-! ## Minimizing and trimming cores -/

/-- A core of the clauses in the oracle, without repetition. -/
structure CoreFor (s : Slv P C) (core : List Lit) : Prop where
  nodup : core.Nodup
  implied : ∀ m, cnfEval m s.k.db = true → clauseEval m core = true

theorem CoreFor.same {core : List Lit} (h : Same s s') (hc : CoreFor s core) : CoreFor s' core :=
  ⟨hc.nodup, by rw [h.db]; exact hc.implied⟩

theorem lit_not_not (l : Lit) : l.not.not = l := by cases l; simp [Lit.not]

theorem lit_not_inj {a b : Lit} (h : a.not = b.not) : a = b := by rw [← lit_not_not a, h, lit_not_not]

theorem nodup_map_not {l : List Lit} (h : l.Nodup) : (l.map Lit.not).Nodup := by
  induction l with
  | nil => exact List.nodup_nil
  | cons a l ih =>
    simp only [List.nodup_cons, List.map_cons] at h ⊢
    refine ⟨fun hm => ?_, ih h.2⟩
    obtain ⟨b, hb, he⟩ := List.mem_map.1 hm
    exact h.1 (lit_not_inj he ▸ hb)

theorem filterBase_nil (core : List Lit) : filterBase [] core = core := rfl

theorem mem_of_core_not {core l : List Lit} (h : ∀ x ∈ core, x.not ∈ l.map Lit.not) : ∀ x ∈ core, x ∈ l := by
  intro x hx
  obtain ⟨y, hy, he⟩ := List.mem_map.1 (h x hx)
  rw [← lit_not_inj he]
  exact hy

theorem wp_minimizeLoop (orc : OracleOK env) (nd : NoDupCores env) (xs core : List Lit)
    (hio : IoInv env n s.io) (hc : CoreFor s core) (hu : Usable pb s0 s) :
    wp env (minimizeLoop [] xs core) (fun core' s' => Same s s' ∧ IoInv env n s'.io ∧ CoreFor s core' ∧
      ∀ l ∈ core', l ∈ core) (GStop pb env n fuel N s0) s := by
  induction xs generalizing core s with
  | nil =>
    unfold minimizeLoop
    rw [wp_pure]
    exact ⟨Same.refl s, hio, hc, fun _ h => h⟩
  | cons x xs ih =>
    unfold minimizeLoop
    rw [wp_bind]
    have hback : ∀ s1, Same s s1 → IoInv env n s1.io → ∀ core1, CoreFor s core1 → (∀ l ∈ core1, l ∈ core) →
        wp env (minimizeLoop [] xs core1) (fun core' s' => Same s s' ∧ IoInv env n s'.io ∧ CoreFor s core' ∧
          ∀ l ∈ core', l ∈ core) (GStop pb env n fuel N s0) s1 := by
      intro s1 h1 hio1 core1 hc1 hsub
      refine wp_mono (ih core1 hio1 (hc1.same h1) (hu.same h1)) ?_ (fun _ _ h => h)
      rintro core' s2 ⟨h2, hio2, hc2, hsub2⟩
      exact ⟨h1.trans h2, hio2, ⟨hc2.nodup, by rw [← h1.db]; exact hc2.implied⟩, fun l hl => hsub l (hsub2 l hl)⟩
    refine wp_solveAssumpsL orc _ hio ?_ ?_ ?_ (fun e s' hh h => GStop.ofIo hu hh h)
    · intro m s1 h1 _ hio1 _ _
      rw [if_neg (by simp)]
      exact hback s1 h1 hio1 core hc (fun _ h => h)
    · intro t lim core1 s1 horc h1 hst hio1 hsub himp
      rw [if_pos rfl, wp_bind]
      refine wp_oracleCore hst ?_
      rw [filterBase_nil]
      simp only [List.nil_append] at hsub horc
      refine hback s1 h1 hio1 core1 ⟨nd _ _ _ _ _ horc (nodup_map_not (hc.nodup.filter _)), himp⟩ ?_
      intro l hl
      exact List.mem_of_mem_filter (mem_of_core_not hsub l hl)
    · intro _ s1 h1 hio1
      rw [if_neg (by simp)]
      exact hback s1 h1 hio1 core hc (fun _ h => h)

theorem wp_minimizeCore (orc : OracleOK env) (nd : NoDupCores env) (core : List Lit)
    (hlim : s.k.conflLimited = false) (hio : IoInv env n s.io) (hc : CoreFor s core) (hu : Usable pb s0 s) :
    wp env (minimizeCore core []) (fun core' s' => Same s s' ∧ IoInv env n s'.io ∧ CoreFor s core' ∧
      ∀ l ∈ core', l ∈ core) (GStop pb env n fuel N s0) s := by
  unfold minimizeCore
  rw [wp_bind, wp_getS]
  split
  · rw [wp_pure]; exact ⟨Same.refl s, hio, hc, fun _ h => h⟩
  split
  · rw [wp_pure]; exact ⟨Same.refl s, hio, hc, fun _ h => h⟩
  rw [wp_bind]
  rename_i hmin _
  refine wp_logEvent _ hio (fun s1 h1 hk1 hio1 => ?_) (fun e s' hh h => GStop.ofIo hu hh h)
  rw [wp_bind]
  refine wp_setConflLimit true ?_
  rw [wp_bind]
  refine wp_mono (wp_minimizeLoop orc nd core.reverse core (s := { s1 with k := { s1.k with conflLimited := true } }) hio1
    ⟨hc.nodup, by rw [show ({ s1 with k := { s1.k with conflLimited := true } } : Slv P C).k.db = s.k.db from h1.db]
                  exact hc.implied⟩
    ((hu.same h1).setLim true fun _ => .inr (by rw [h1.opts]; simpa using hmin))) ?_ (fun _ _ h => h)
  rintro core' s2 ⟨h2, hio2, hc2, hsub⟩
  rw [wp_bind]
  refine wp_setConflLimit false ?_
  have h3 : Same s { s2 with k := { s2.k with conflLimited := false } } := by
    refine ⟨?_, h2.encs.trans h1.encs, h2.front.trans h1.front, h2.fence.trans h1.fence⟩
    simp only
    rw [h2.k]
    simp only
    rw [h1.k]
    simp only
    rw [← hlim]
  rw [wp_bind]
  refine wp_logEvent _ (s := { s2 with k := { s2.k with conflLimited := false } }) hio2 (fun s3 h4 hk4 hio3 => ?_)
    (fun e s' hh h => GStop.ofIo (hu.same h3) hh h)
  rw [wp_pure]
  exact ⟨h3.trans h4, hio3, ⟨hc2.nodup, by rw [← h1.db]; exact hc2.implied⟩, hsub⟩

theorem nodup_length_le {a b : List Lit} (ha : a.Nodup) (h : ∀ x ∈ a, x ∈ b) : a.length ≤ b.length :=
  (List.subperm_of_subset ha h).length_le

theorem wp_trimCore (orc : OracleOK env) (nd : NoDupCores env) (core : List Lit)
    (hlim : s.k.conflLimited = false) (hio : IoInv env n s.io) (hc : CoreFor s core)
    (hN : (∃ t, pb.Sol t) → core.length ≤ N) (hu : Usable pb s0 s) :
    wp env (trimCore fuel core []) (fun core' s' => Same s s' ∧ IoInv env n s'.io ∧ CoreFor s core' ∧
      ∀ l ∈ core', l ∈ core) (GStop pb env n fuel N s0) s := by
  unfold trimCore
  rw [wp_bind, wp_getS]
  split
  · rw [wp_pure]; exact ⟨Same.refl s, hio, hc, fun _ h => h⟩
  split
  · rw [wp_pure]; exact ⟨Same.refl s, hio, hc, fun _ h => h⟩
  rw [wp_bind]
  refine wp_logEvent _ hio (fun s1 h1 hk1 hio1 => ?_) (fun e s' hh h => GStop.ofIo hu hh h)
  rw [wp_bind]
  have hloop : wp env (loopM (trimBody []) fuel core) (fun core' s' => Same s1 s' ∧ IoInv env n s'.io ∧ CoreFor s core' ∧
      ∀ l ∈ core', l ∈ core) (GStop pb env n fuel N s0) s1 := by
    refine wp_loop (fun c s' => Same s1 s' ∧ IoInv env n s'.io ∧ CoreFor s c ∧ ∀ l ∈ c, l ∈ core)
      (fun c _ => c.length) core.length fuel _ _ ?_ ?_ ?_ ⟨Same.refl _, hio1, hc, fun _ h => h⟩
    · rintro c s' ⟨-, -, h3, h4⟩
      exact nodup_length_le h3.nodup h4
    · rintro c s2 ⟨h2, hio2, hc2, hsub⟩
      unfold trimBody
      split
      · rw [wp_bind]
        have h12 := h1.trans h2
        refine wp_solveAssumpsL orc _ hio2 ?_ ?_ ?_ (fun e s' hh h => GStop.ofIo (hu.same h12) hh h)
        · intro m s3 h3 _ hio3 hm ha
          exfalso
          rw [h12.db] at hm
          have := hc2.implied m hm
          simp only [List.nil_append] at ha
          unfold clauseEval at this
          obtain ⟨l, hl, hl'⟩ := List.any_eq_true.1 this
          unfold cubeEval at ha
          have := List.all_eq_true.1 ha l.not (List.mem_map_of_mem hl)
          rw [Lit.eval_not] at this
          simp [hl'] at this
        · intro t lim c1 s3 horc h3 hst hio3 hcs himp
          rw [wp_bind]
          refine wp_dbg (by rfl) ?_
          rw [wp_bind]
          refine wp_oracleCore hst ?_
          rw [filterBase_nil]
          simp only [List.nil_append] at hcs horc
          have hnd := nd _ _ _ _ _ horc (nodup_map_not hc2.nodup)
          have hmem := mem_of_core_not hcs
          have hc3 : CoreFor s c1 := ⟨hnd, by rw [← h12.db]; exact himp⟩
          have hle := nodup_length_le hnd hmem
          simp only
          split
          · rw [wp_pure]
            exact ⟨h2.trans h3, hio3, hc3, fun l hl => hsub l (hmem l hl)⟩
          · rw [wp_pure]
            exact ⟨⟨h2.trans h3, hio3, hc3, fun l hl => hsub l (hmem l hl)⟩, by simp only; omega⟩
        · intro hl
          rw [h12.lim, hlim] at hl
          simp at hl
      · rw [wp_pure]
        exact ⟨h2, hio2, hc2, hsub⟩
    · rintro c s2 ⟨h2, hio2, -, -⟩ hf
      exact ⟨hio2.base, fun hs => Nat.le_trans hf (hN hs)⟩
  refine wp_mono hloop ?_ (fun _ _ h => h)
  rintro core' s2 ⟨h2, hio2, hc2, hsub⟩
  rw [wp_bind]
  refine wp_logEvent _ hio2 (fun s3 h3 hk3 hio3 => ?_) (fun e s' hh h => GStop.ofIo (hu.same (h1.trans h2)) hh h)
  rw [wp_pure]
  exact ⟨(h1.trans h2).trans h3, hio3, hc2, hsub⟩

end Scuttle
