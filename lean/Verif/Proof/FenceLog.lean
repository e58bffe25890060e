import Verif.Proof.Resume
import Verif.Proof.IoLog

/-!
# The fence in the log of lower-bounding
-/

set_option linter.unusedSectionVars false

namespace Scuttle

open Spec

variable {P C : Type} [UbEnc P] [UbEnc C]
variable {env : Env} {s : Slv P C} {inst : Instance} {opts : KernelOptions} {bcg : Assignment → Clause}

/-! ## Main loop calls without solution -/

/-- Number of routines that are open. -/
def openRoutines : List LogEvent → Int
  | [] => 0
  | .routineStart _ :: es => openRoutines es + 1
  | .routineEnd :: es => openRoutines es - 1
  | _ :: es => openRoutines es

theorem openRoutines_append (a b : List LogEvent) : openRoutines (a ++ b) = openRoutines a + openRoutines b := by
  induction a with
  | nil => simp [openRoutines]
  | cons e a ih => cases e <;> simp only [List.cons_append, openRoutines, ih] <;> omega

theorem Spec.Balanced.open {es : List LogEvent} (h : Balanced es) : openRoutines es = 0 := by
  induction h with
  | nil => rfl
  | other e h1 h2 => cases e <;> simp [openRoutines] at h1 h2 ⊢
  | wrap x h ih => rw [List.cons_append, openRoutines, openRoutines_append, ih]; rfl
  | append _ _ ih1 ih2 => rw [openRoutines_append, ih1, ih2]; rfl

theorem Spec.Opened.open {d : Nat} {es : List LogEvent} (h : Opened d es) : openRoutines es = d := by
  induction h with
  | zero h => exact h.open
  | succ x _ h2 ih => rw [openRoutines_append, ih, openRoutines, h2.open]; omega

/-- Each main loop call without solution is answered by an update of the fence. -/
def Answered (es : List LogEvent) : Prop :=
  ∀ a b, es = a ++ .oracleCall .unsat :: b → openRoutines a = 1 → ∃ x b', b = .fence x :: b'

/-- The same, except that the last messages may be such a call and the end of the routine. -/
def Answered' (es : List LogEvent) : Prop :=
  ∀ a b, es = a ++ .oracleCall .unsat :: b → openRoutines a = 1 → b = [] ∨ b = [.routineEnd] ∨ ∃ x b', b = .fence x :: b'

theorem Answered.weak {es : List LogEvent} (h : Answered es) : Answered' es := fun a b h1 h2 => .inr (.inr (h a b h1 h2))

theorem Answered.snoc {es : List LogEvent} (h : Answered es) {e : LogEvent} (he : openRoutines es = 1 → e ≠ .oracleCall .unsat) :
    Answered (es ++ [e]) := by
  intro a b hab ha
  rcases List.eq_nil_or_concat b with rfl | ⟨b', x, rfl⟩
  · obtain ⟨rfl, h2⟩ := List.append_inj' hab rfl
    simp only [List.cons.injEq, and_true] at h2
    exact absurd h2 (he ha)
  · rw [List.concat_eq_append, ← List.cons_append, ← List.append_assoc] at hab
    obtain ⟨h1, -⟩ := List.append_inj' hab rfl
    obtain ⟨y, b'', rfl⟩ := h a b' h1 ha
    exact ⟨y, b'' ++ [x], by simp⟩

/-- A call without solution is pending. -/
def Pending (es : List LogEvent) : Prop := ∃ es', es = es' ++ [.oracleCall .unsat] ∧ Answered es'

theorem Pending.answer {es : List LogEvent} (h : Pending es) (e : LogEvent) (he : e = .routineEnd ∨ ∃ b, e = .fence b) :
    Answered' (es ++ [e]) ∧ ((∃ b, e = .fence b) → Answered (es ++ [e])) := by
  obtain ⟨es', rfl, h⟩ := h
  have key : ∀ a b, es' ++ [.oracleCall .unsat] ++ [e] = a ++ .oracleCall .unsat :: b → openRoutines a = 1 →
      b = [e] ∨ ∃ x b', b = .fence x :: b' := by
    intro a b hab ha
    rcases List.eq_nil_or_concat b with rfl | ⟨b', x, rfl⟩
    · obtain ⟨-, h2⟩ := List.append_inj' hab rfl
      simp only [List.cons.injEq, and_true] at h2
      subst h2
      rcases he with he | ⟨b, he⟩ <;> cases he
    · rw [List.concat_eq_append, ← List.cons_append, ← List.append_assoc] at hab
      obtain ⟨h1, h2⟩ := List.append_inj' hab rfl
      simp only [List.cons.injEq, and_true] at h2
      subst h2
      rcases List.eq_nil_or_concat b' with rfl | ⟨b'', y, rfl⟩
      · exact .inl rfl
      · rw [List.concat_eq_append, ← List.cons_append, ← List.append_assoc] at h1
        obtain ⟨h3, -⟩ := List.append_inj' h1 rfl
        obtain ⟨z, b3, rfl⟩ := h a b'' h3 ha
        exact .inr ⟨z, _, rfl⟩
  refine ⟨fun a b h1 h2 => ?_, fun ⟨x, hx⟩ a b h1 h2 => ?_⟩
  · rcases key a b h1 h2 with rfl | h3
    · rcases he with rfl | ⟨x, rfl⟩
      · exact .inr (.inl rfl)
      · exact .inr (.inr ⟨x, [], rfl⟩)
    · exact .inr (.inr h3)
  · rcases key a b h1 h2 with rfl | h3
    · subst hx; exact ⟨x, [], rfl⟩
    · exact h3

theorem Pending.weak {es : List LogEvent} (h : Pending es) : Answered' es := by
  obtain ⟨es', rfl, h⟩ := h
  intro a b hab ha
  rcases List.eq_nil_or_concat b with rfl | ⟨b', x, rfl⟩
  · exact .inl rfl
  · rw [List.concat_eq_append, ← List.cons_append, ← List.append_assoc] at hab
    obtain ⟨h1, -⟩ := List.append_inj' hab rfl
    obtain ⟨y, b'', rfl⟩ := h a b' h1 ha
    exact .inr (.inr ⟨y, _, rfl⟩)

/-- The log of a call with `d` open routines. -/
def LbRun (l0 : List LogEvent) (d : Nat) (l : List LogEvent) : Prop :=
  ∃ es, l = l0 ++ es ∧ openRoutines es = d ∧ Answered es

/-- The log of a call that stopped. -/
def LbEnd (l0 : List LogEvent) (l : List LogEvent) : Prop := ∃ es, l = l0 ++ es ∧ Answered' es

variable {l0 : List LogEvent}

theorem LbRun.end {d : Nat} {l : List LogEvent} (h : LbRun l0 d l) : LbEnd l0 l := by
  obtain ⟨es, h1, -, h3⟩ := h
  exact ⟨es, h1, h3.weak⟩

theorem LbRun.snoc {d d' : Nat} {l : List LogEvent} {e : LogEvent} (h : LbRun l0 d l)
    (hd : (d : Int) + openRoutines [e] = d') (he : d = 1 → e ≠ .oracleCall .unsat) : LbRun l0 d' (l ++ [e]) := by
  obtain ⟨es, rfl, h2, h3⟩ := h
  refine ⟨es ++ [e], by simp, by rw [openRoutines_append, h2]; exact hd, h3.snoc fun h => he ?_⟩
  rw [h2] at h
  omega

/-- What happens inside harvesting. -/
theorem lbPred (l0 : List LogEvent) : LogPred (fun d => LbRun l0 (d + 1)) (LbEnd l0) where
  halt := LbRun.end
  start := fun x h => h.snoc (by simp [openRoutines]) (by simp)
  finish := fun h => h.snoc (by simp [openRoutines]) (by simp)
  cand := fun c ph h => h.snoc (by simp [openRoutines]) (by simp)
  call := fun r h => h.snoc (by simp [openRoutines]) (by simp)
  sol := fun h => h.snoc (by simp [openRoutines]) (by simp)
  point := fun p h => h.snoc (by simp [openRoutines]) (by simp)
  heur := fun i a b h => h.snoc (by simp [openRoutines]) (by simp)

theorem lb_lbBody (fuel : Nat) (u : Unit) :
    Tr (P := P) (C := C) env (LogHas (LbRun l0 1)) (lbBody fuel u)
      (BodyPost (fun _ => LogHas (LbRun l0 1)) (fun _ => LogHas (LbEnd l0))) (fun _ => LogHas (LbEnd l0)) := by
  have L := (lbPred l0).core (P := P) (C := C) env
  have qp : Quiet (P := P) (C := C) (LogHas fun l => ∃ es, l = l0 ++ es ∧ openRoutines es = 1 ∧ Pending es) (fun _ => LogHas (LbEnd l0)) :=
    ⟨fun h _ _ h' => h'.congr (by rw [h]), fun _ _ h => h.mono fun l => by
      rintro ⟨es, rfl, -, h⟩
      exact ⟨es, rfl, h.weak⟩⟩
  refine Tr.getS fun s => ?_
  refine Tr.bind (Q := fun r => LogHas fun l => match r with
    | .unsat => ∃ es, l = l0 ++ es ∧ openRoutines es = 1 ∧ Pending es
    | _ => LbRun l0 1 l) ?_ fun r => ?_
  · intro s hs
    refine LogHas.call (T := LbRun l0) (d := 1) (T' := fun r l => match r with
      | .unsat => ∃ es, l = l0 ++ es ∧ openRoutines es = 1 ∧ Pending es
      | _ => LbRun l0 1 l) hs LbRun.end (fun x h => h.snoc (by simp [openRoutines]) (by simp))
      (fun h => h.snoc (by simp [openRoutines]) (by simp)) ?_ ?_ _
    · intro l r h
      cases r with
      | unsat =>
        obtain ⟨es, rfl, ho, h3⟩ := h
        exact ⟨es ++ [.oracleCall .unsat], by simp, by rw [openRoutines_append, ho]; rfl, es, rfl, h3⟩
      | sat => exact h.snoc (by simp [openRoutines]) (by simp)
      | interrupted => exact h.snoc (by simp [openRoutines]) (by simp)
    · intro r l h
      cases r with
      | unsat =>
        obtain ⟨es, rfl, -, h⟩ := h
        exact ⟨es, rfl, h.weak⟩
      | sat => exact LbRun.end h
      | interrupted => exact LbRun.end h
  cases r with
  | sat => exact (L.harvest (d := 0) (c := true) _ _).bind fun _ => Tr.pure fun _ h => h
  | interrupted => exact fun s h => h.mono fun _ => LbRun.end
  | unsat =>
    refine qp.oracleCore.bind fun core => Tr.ite (fun _ => ?_) fun _ => ?_
    · refine Tr.bind (Q := fun _ => LogHas (LbEnd l0)) ?_ fun _ => Tr.pure fun _ h => h
      intro s h
      refine h.event ?_ ?_
      · rintro l ⟨es, rfl, -, h⟩
        exact ⟨es ++ [.routineEnd], by simp, (h.answer _ (.inl rfl)).1⟩
      · rintro l ⟨es, rfl, -, h⟩
        exact ⟨es, rfl, h.weak⟩
    · refine Tr.getS fun _ => Tr.bind (Q := fun _ => LogHas (LbRun l0 1)) ?_ fun _ => Tr.getS fun _ =>
        ((L.q (d := 0) (p := 0) (c := true)).dbg _).bind fun _ => Tr.pure fun _ h => h
      refine Tr.getS fun _ => (qp.updateFenceLoop _ _).bind fun _ => Tr.getS fun _ => ?_
      intro s h
      refine h.event ?_ ?_
      · rintro l ⟨es, rfl, ho, h⟩
        exact ⟨_, List.append_assoc .., by rw [openRoutines_append, ho]; rfl, (h.answer _ (.inr ⟨_, rfl⟩)).2 ⟨_, rfl⟩⟩
      · rintro l ⟨es, rfl, -, h⟩
        exact ⟨es, rfl, h.weak⟩

/-- The messages of a call of lower-bounding. -/
theorem lb_lbSolve (fuel : Nat) (limits : Limits) (s : Slv P C) (hl : s.io.logger = some l0) :
    LogHas (LbEnd l0) (Alg.solve .lowerBounding fuel limits env s).2 := by
  have L := (lbPred l0).core (P := P) (C := C) env
  have h0 : LogHas (LbRun l0 0) s := by
    intro l h
    rw [hl] at h
    cases h
    exact ⟨[], by simp, rfl, fun a b h => by simp at h⟩
  have q0 : Quiet (P := P) (C := C) (LogHas (LbRun l0 0)) (fun _ => LogHas (LbEnd l0)) :=
    ⟨fun h _ _ h' => h'.congr (by rw [h]), fun _ _ h => h.mono fun l => LbRun.end⟩
  have hr : wp env (Alg.solve .lowerBounding fuel limits) (fun _ => LogHas (LbEnd l0)) (fun _ => LogHas (LbEnd l0)) s := by
    show wp env (do startSolving limits; Scuttle.lbMain fuel) _ _ s
    unfold startSolving
    rw [wp_bind, wp_modifyS]
    refine Tr.getS (A := LogHas (LbRun l0 0)) (fun _ => (q0.dbg _).bind fun _ => Tr.bind (Q := fun _ => LogHas (LbRun l0 1))
      (fun s h => ?_) fun _ => (L.initFence (d := 0) (p := 0) (c := true)).bind fun _ =>
        Tr.loop (I := fun _ => LogHas (LbRun l0 1)) fuel () (fun u => lb_lbBody fuel u) fun _ _ h => h.mono fun l => LbRun.end) _ h0
    exact h.event (fun l h => h.snoc (by simp [openRoutines]) (by simp)) fun l => LbRun.end
  unfold wp at hr
  cases h : Alg.solve .lowerBounding fuel limits env s with
  | mk r s' =>
    rw [h] at hr
    cases r <;> exact hr

theorem LbEnd.unsatRaises {es : List LogEvent} (h : LbEnd l0 (l0 ++ es)) : UnsatRaises es := by
  obtain ⟨es', h1, h2⟩ := h
  obtain rfl := List.append_cancel_left h1
  exact fun a b hab ha => h2 a b hab ha.open

/-! ## The chain of fences -/

variable [LawfulUbEnc P] [LawfulUbEnc C]

/-- A run of lower-bounding on a fresh or boosted solver. -/
theorem prepared_fences (hs : Setting inst bcg opts env) {limits : Limits} (hlim : LimitsFine env limits)
    (hf : Prepared .lowerBounding inst bcg opts s) (fuel : Nat) :
    FTrackC (inst.pb opts bcg) s (Alg.solve .lowerBounding fuel limits env s).2 ∧
    OTrackC (inst.pb opts bcg) (fun _ => True) [] s (Alg.solve .lowerBounding fuel limits env s).2 := by
  have wf := pb_wf (opts := opts) (bcg := bcg) hs.wf
  have hfit := pb_fits (opts := opts) (bcg := bcg) hs.fits
  let s1 : Slv P C :=
    { s with io := { s.io with lims := limits, stats := { s.io.stats with nSolveCalls := s.io.stats.nSolveCalls + 1 } } }
  have hio : IoInv env (inst.pb opts bcg).objs.length s1.io :=
    ⟨hf.base, fun hd => ⟨(hlim hd).pps, (hlim hd).sols, (hlim hd).candidates, (hlim hd).oracleCalls⟩⟩
  have hsame : Same s s1 := ⟨rfl, rfl, rfl, rfl⟩
  have hcore : Core (inst.pb opts bcg) (fun _ => True) [] s1 :=
    hf.core.grow hsame.step.toGrow hf.core.abs (hf.core.inv.same hsame)
  have hpb : (inst.pb opts bcg).en = s1.k.opts.enumeration ∧ (inst.pb opts bcg).blk = blkOf s1.k := hf.en
  have hblk : s1.k.opts.enumeration ≠ .noEnum → BlockOK (inst.pb opts bcg) (blkOf s1.k) := by
    intro h
    rw [← hpb.2]
    exact EnumFine.blockOK hs.wf hs.unit hs.enum (by rw [← hf.opts]; exact h)
  refine wp_run (R := fun _ s' => FTrackC (inst.pb opts bcg) s s' ∧ OTrackC (inst.pb opts bcg) (fun _ => True) [] s s') ?_
  unfold Alg.solve lbSolve startSolving
  rw [wp_bind, wp_modifyS]
  refine wp_lbMain wf (CorrectOracle.ok hs.oracle) hs.tok hfit hio hcore (.inl hf.fence) hblk hpb fuel ?_ ?_
  · exact fun s2 h => ⟨h.fence.2.1.2.2.chain, h.log⟩
  · exact fun e s2 h => h.log

/-- The chain starts at the offsets. -/
theorem flog_start {pb : Pb} {strict : Prop} (hf : s.fence = []) (hl : ∀ l, s.io.logger = some l → fences l = []) :
    FLog pb strict (encOffs s) s := by
  intro l h
  rw [hl l h]
  exact ⟨List.IsChain.singleton _, by simp [effBounds, hf]⟩

/-- All bounds have the same length. -/
theorem chain_length {R : List Nat → List Nat → Prop} (hR : ∀ b b', R b b' → b.length = b'.length) {b0 : List Nat}
    {bs : List (List Nat)} (h : List.IsChain R (b0 :: bs)) : ∀ b ∈ b0 :: bs, b.length = b0.length := by
  induction bs generalizing b0 with
  | nil => intro b hb; simp at hb; rw [hb]
  | cons b1 bs ih =>
    intro b hb
    rw [List.isChain_cons_cons] at h
    rcases List.mem_cons.1 hb with rfl | hb
    · rfl
    · rw [ih h.2 b hb, hR _ _ h.1]

/-- Everything below the fences is covered. -/
theorem prepared_covered (hs : Setting inst bcg opts env) {limits : Limits} (hlim : LimitsFine env limits)
    (hf : Prepared .lowerBounding inst bcg opts s) (fuel : Nat)
    (hl : ∀ l, s.io.logger = some l → fences l = []) {l : List LogEvent}
    (hlog : (Alg.solve .lowerBounding fuel limits env s).2.io.logger = some l) : FencesTrue inst (encOffs s) l := by
  obtain ⟨h1, h2⟩ := prepared_fences hs hlim hf fuel
  have hch := h1 False (encOffs s) (fun h => h.elim) (flog_start hf.fence hl) l hlog
  have hlen := chain_length (fun b b' h => h.1.1.length_eq) hch
  have hfr : s.front = [] := List.forall₂_nil_right_iff.1 hf.core.front.points
  have hol : OLog (inst.pb opts bcg) (encOffs s) s := by
    intro l' hl'
    have hn : ∀ b, .fence b ∉ l' := by
      intro b hb
      have : b ∈ fences l' := List.mem_filterMap.2 ⟨_, hb, rfl⟩
      rw [hl l' hl'] at this
      cases this
    refine ⟨fun pre b' post heq => absurd (by rw [heq]; simp) (hn b'), ?_, by rw [hfr]; simp⟩
    rw [hl l' hl']
    simp [effBounds, hf.fence]
  have ht := h2 (fun t _ => .inl trivial) _ hol l hlog
  intro pre b' post heq b hb t hfeas hle
  have hbl : b.length = inst.objs.length := by
    have h3 : b ∈ encOffs s :: fences l := by
      have := List.mem_of_getLast? hb
      rw [heq, fences_append]
      rcases List.mem_cons.1 this with h | h
      · simp [h]
      · simp [h]
    rw [hlen b h3, encOffs, List.length_map]
    exact hf.core.inv.len
  have hvle : VLe ((inst.pb opts bcg).costs t) b := by
    refine List.forall₂_iff_get.2 ⟨by rw [hbl]; simp [Pb.costs, Instance.pb], fun i hi hi' => ?_⟩
    have hio : i < inst.objs.length := by omega
    have h4 := hle i _ _ (List.getElem?_eq_getElem hio) (List.getElem?_eq_getElem hi')
    have h5 := unitWeight_pos hs.unit (List.getElem_mem hio)
    rw [objValue_external] at h4
    simp only [Pb.costs, Instance.pb, List.get_eq_getElem, List.getElem_map]
    generalize inst.objs[i] = o at h4 h5
    cases o with
    | weighted => simp only [externalCost] at h4; omega
    | unweighted off w lits i b =>
      simp only [externalCost, Objective.unitWeight] at h4 h5
      exact Nat.le_of_mul_le_mul_right (by omega) h5
    | constant => simp [icost, Objective.iter, linear]
  obtain ⟨p, hp, t', h6, h7⟩ := ht pre b' post heq b hb t ((feasible_iff t).1 hfeas) hvle
  refine ⟨p, hp, ?_⟩
  rw [h7, ← costs_eq]
  exact (weaklyDominates_iff hs.unit t' t).2 h6

/-- The chain starts anew with a new log. -/
theorem flog_attach {pb : Pb} {strict : Prop} (lg : Option (List LogEvent)) (hl : ∀ l, lg = some l → fences l = []) :
    FLog pb strict (effBounds s) { s with io := { s.io with logger := lg } } := by
  intro l h
  rw [hl l h]
  exact ⟨List.IsChain.singleton _, by simp [effBounds, encOffs]⟩

/-- One more call. -/
theorem Between.fences {cov : Prop} (h : Between inst bcg opts cov s) (hs : Setting inst bcg opts env)
    (hno : opts.enumeration = .noEnum) (hlf : ¬ LogFail env) {limits : Limits} (hlim : LimitsFine env limits) (fuel : Nat) :
    FTrack (inst.pb opts bcg) s (Alg.solve .lowerBounding fuel limits env s).2 ∧
    EncStep s (Alg.solve .lowerBounding fuel limits env s).2 := by
  obtain ⟨A, cs, hcore0, -⟩ := h.core
  have wf := pb_wf (opts := opts) (bcg := bcg) hs.wf
  have hfit := pb_fits (opts := opts) (bcg := bcg) hs.fits
  let s1 : Slv P C :=
    { s with io := { s.io with lims := limits, stats := { s.io.stats with nSolveCalls := s.io.stats.nSolveCalls + 1 } } }
  have hio : IoInv env (inst.pb opts bcg).objs.length s1.io :=
    ⟨h.base, fun hd => ⟨(hlim hd).pps, (hlim hd).sols, (hlim hd).candidates, (hlim hd).oracleCalls⟩⟩
  have hsame : Same s s1 := ⟨rfl, rfl, rfl, rfl⟩
  have hcore : Core (inst.pb opts bcg) A cs s1 := hcore0.grow hsame.step.toGrow hcore0.abs (hcore0.inv.same hsame)
  have hen1 : s1.k.opts.enumeration = .noEnum := by rw [show s1.k.opts = opts from h.opts]; exact hno
  have hpb : (inst.pb opts bcg).en = s1.k.opts.enumeration ∧ (inst.pb opts bcg).blk = blkOf s1.k := by
    refine ⟨by rw [show s1.k.opts = opts from h.opts]; rfl, ?_⟩
    funext sol
    unfold blkOf
    rw [show s1.k.opts = opts from h.opts, hcore.inv.objs, show s1.k.bcg = bcg from h.bcg]
    rfl
  have hblk : s1.k.opts.enumeration ≠ .noEnum → BlockOK (inst.pb opts bcg) (blkOf s1.k) := fun h => absurd hen1 h
  refine wp_run (R := fun _ s' => FTrack (inst.pb opts bcg) s s' ∧ EncStep s s') ?_
  unfold Alg.solve lbSolve startSolving
  rw [wp_bind, wp_modifyS]
  refine wp_lbMain wf (CorrectOracle.ok hs.oracle) hs.tok hfit hio hcore (h.fence.encStep rfl hsame.step.enc) hblk hpb fuel ?_ ?_
  · exact fun s2 h => ⟨h.fence.2.1.2.2, hsame.step.enc.trans h.fence.2.1.2.1⟩
  · intro e s2 h
    obtain ⟨-, ⟨-, h2, h3⟩, -⟩ := h.noEnum hen1
    exact ⟨h3 fun he => hlf (h.error he), hsame.step.enc.trans h2⟩

/-- Several calls. -/
theorem Between.fences_calls (hs : Setting inst bcg opts env)
    (hno : opts.enumeration = .noEnum) (hlf : ¬ LogFail env) (calls : List Call) (hc : CallsFine env calls) {cov : Prop}
    {s : Slv P C} (h : Between inst bcg opts cov s) (hv : EncVals (inst.pb opts bcg) s)
    (hf : ∃ b0, FLog (inst.pb opts bcg) True b0 s) :
    ∃ b0, FLog (inst.pb opts bcg) True b0 (Alg.calls .lowerBounding env calls s).2 := by
  induction calls generalizing s cov with
  | nil => exact hf
  | cons c calls ih =>
    have hc' : CallsFine env calls := fun f l hm => hc f l (by simp [hm])
    cases c with
    | solve fuel limits =>
      have hlim := hc fuel limits (by simp)
      obtain ⟨h1, h2⟩ := h.fences hs hno hlf hlim fuel
      obtain ⟨b0, hf⟩ := hf
      exact ih hc' (h.solve (by simp) hs hno hlim fuel).between (hv.step h2) ⟨b0, h1 True b0 (fun _ => hv) hf⟩
    | attachLogger => exact ih hc' (h.logger LogOk.empty) hv ⟨_, flog_attach _ fun l h => by cases h; rfl⟩
    | detachLogger => exact ih hc' (h.logger LogOk.none) hv ⟨_, flog_attach _ fun l h => by cases h⟩

end Scuttle
