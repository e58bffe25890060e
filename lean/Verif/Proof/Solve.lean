import Verif.SpecRun
import Verif.Proof.Init

/-!
# Rules for `solve`
-/

set_option linter.unusedSectionVars false

namespace Scuttle

open Spec

variable {P C : Type} [UbEnc P] [UbEnc C] [LawfulUbEnc P] [LawfulUbEnc C]
variable {env : Env} {E : Stop → Slv P C → Prop} {s : Slv P C} {pb : Pb} {A : Asg → Prop}
variable {inst : Instance} {opts : KernelOptions} {bcg : Assignment → Clause}

theorem _root_.Scuttle.Spec.Setting.tok {inst : Instance} {bcg : Assignment → Clause} {opts : KernelOptions}
    (hs : Setting inst bcg opts env) : TightOK env (inst.pb opts bcg) := by
  intro ht o ho
  obtain ⟨h1, h2⟩ := hs.tight ht
  have hn := h1 o ho
  cases o with
  | weighted off lits i lb => exact ⟨hn, h2 off lits i lb ho⟩
  | unweighted off w lits i lb =>
    refine ⟨?_, fun p hp => ?_⟩
    · have : ((Objective.unweighted off w lits i lb).iter.map Prod.fst) = lits := by
        simp [Objective.iter, Function.comp_def]
      rw [this]; exact hn
    · simp only [Objective.iter, List.mem_map] at hp
      obtain ⟨l, -, rfl⟩ := hp
      exact Nat.one_pos
  | constant off i lb => simp [Objective.iter]

theorem CorrectOracle.ok (h : CorrectOracle env) : OracleOK env := by
  have h1 : ∀ (m : Asg) (db : List Clause), cnfEval m db = true ↔ ∀ c ∈ db, ∃ l ∈ c, LitTrue m l := by
    intro m db
    simp [cnfEval, clauseEval, List.all_eq_true, List.any_eq_true, Lit.eval_iff]
  refine ⟨?_, ?_, h.interrupted, ?_⟩
  · intro t lim db as m hm
    obtain ⟨a, b⟩ := h.sat t lim db as m hm
    refine ⟨(h1 m db).2 a, ?_⟩
    simp only [cubeEval, List.all_eq_true, Lit.eval_iff]
    exact b
  · intro t lim db as core hc
    obtain ⟨a, b⟩ := h.unsat t lim db as core hc
    refine ⟨a, fun m hm => ?_⟩
    simp only [clauseEval, List.any_eq_true, Lit.eval_iff]
    exact b m ((h1 m db).1 hm)
  · intro t db frozen m l m' hf hm
    obtain ⟨a, b, c⟩ := h.flip t db frozen m l m' hf ((h1 m db).1 hm)
    exact ⟨(h1 m' db).2 a, (Lit.eval_iff _ _).2 b, c⟩

theorem alg_new {alg : Alg} {s0 : Slv P C} (h0 : alg.new inst bcg opts = some s0) : Slv.new inst bcg opts = some s0 := by
  cases alg with
  | pMinimal => exact h0
  | lowerBounding => exact h0
  | biOptSat =>
    unfold Slv.new
    unfold Alg.new at h0
    simp only at h0
    cases hk : Kern.new inst.clauses inst.objs inst.vm bcg opts with
    | none => rw [hk] at h0; simp at h0
    | some p =>
      rw [hk] at h0
      simp only [Option.bind_some] at h0
      unfold Slv.initBos at h0
      split at h0
      · simpa using h0
      · simp at h0

theorem new_logger {s0 : Slv P C} (h : Slv.new inst bcg opts = some s0) : s0.io.logger = none := by
  unfold Slv.new Kern.new at h
  cases hv : inst.vm.maxVar with
  | none => rw [hv] at h; simp at h
  | some v =>
    rw [hv] at h
    simp only [Option.map_some, Option.some.injEq] at h
    rw [← h]
    rfl

theorem started_logger {alg : Alg} (h : Started alg inst bcg opts s) : s.io.logger = none ∨ s.io.logger = some [] := by
  obtain ⟨s0, h0, rfl | rfl⟩ := h
  · exact .inl (new_logger (alg_new h0))
  · exact .inr rfl

theorem started_fresh {alg : Alg} (h : Started alg inst bcg opts s) : Fresh inst bcg opts s := by
  obtain ⟨s0, h0, h1⟩ := h
  have h2 := alg_new h0
  rcases h1 with rfl | rfl
  · exact ⟨s, s.io.logger, h2, by rw [new_logger h2]; exact LogOk.none, rfl⟩
  · exact ⟨s0, some [], h2, LogOk.empty, rfl⟩

theorem started_bos (h : Started .biOptSat inst bcg opts s) : inst.objs.length = 2 := by
  obtain ⟨s0, h0, -⟩ := h
  unfold Alg.new Kern.new at h0
  simp only at h0
  cases hv : inst.vm.maxVar with
  | none => rw [hv] at h0; simp at h0
  | some v =>
    rw [hv] at h0
    simp only [Option.bind_some] at h0
    unfold Slv.initBos at h0
    split at h0
    · next h => exact h
    · simp at h0

/-! ## P-minimal -/

theorem wp_pminMain {Q : Unit → Slv P C → Prop} {cs : List (List Nat)} (wf : pb.WF) (orc : OracleOK env)
    (tok : TightOK env pb)
    (hfit : pb.Fits) (hio : IoInv env pb.objs.length s.io) (hcore : Core pb A cs s)
    (hblk : s.k.opts.enumeration ≠ .noEnum → BlockOK pb (blkOf s.k))
    (hpb : pb.en = s.k.opts.enumeration ∧ pb.blk = blkOf s.k) (fuel : Nat)
    (hQ : ∀ s', IoInv env pb.objs.length s'.io → Ext s s' → (∃ A' cs', Core pb A' cs' s' ∧
      (Cover pb A cs → Cover pb A' cs') ∧ ∀ t, pb.Sol t → ¬ A' t) → Q () s')
    (hE : ∀ e s', SolveStop pb env fuel pb.bound A cs s e s' → E e s') : wp env (pminMain fuel) Q E s := by
  unfold pminMain
  rw [wp_bind, wp_getS, wp_bind]
  refine wp_dbg (by rw [hcore.inv.len, hio.base.1]; simp) ?_
  rw [wp_bind]
  refine wp_logEvent _ hio ?_ ?_
  swap
  · intro e s' h1 h2
    have h3 := h2.1.2
    refine hE e s' ⟨h2.1.1, ?_, ?_, ?_, h1.opts, h1.bcg, ⟨cs, by rw [h1.front]; exact hcore.front⟩, fun _ =>
      ⟨h1.fence, h1.step.enc, A, cs, hcore.grow h1.step.toGrow hcore.abs (hcore.inv.same h1),
        fun _ h => h⟩⟩
    · rintro rfl; exact h3
    · rintro rfl; exact h3
    · rintro rfl; exact h3.elim
  intro s1 h1 _ hio1
  have hcore1 := hcore.grow h1.step.toGrow hcore.abs (hcore.inv.same h1)
  have hb1 : blkOf s1.k = blkOf s.k := by unfold blkOf; rw [h1.opts, h1.bcg, h1.objs]
  refine wp_harvestLoop wf orc tok hfit hio1 hcore1 (fun h => by rw [hb1]; exact hblk (by rw [← h1.opts]; exact h))
    ⟨by rw [h1.opts]; exact hpb.1, by rw [hb1]; exact hpb.2⟩ [] fuel ?_ ?_
  · intro s2 hd
    obtain ⟨A2, cs2, hcore2, hcov2⟩ := hd.core
    refine hQ s2 hd.io (h1.step.toGrow.toExt.trans hd.ext) ⟨A2, cs2, hcore2, hcov2, ?_⟩
    intro t ht hA
    obtain ⟨m, -, hm⟩ := hcore2.inv.ext t ht hA
    have := hd.blocked m hm.db
    simp at this
  · intro e s2 hd
    refine hE e s2 ⟨hd.base, hd.panic, hd.error, hd.fuel, by rw [hd.opts, h1.opts], by rw [hd.bcg, h1.bcg], hd.front, ?_⟩
    intro h
    obtain ⟨a, b, c⟩ := hd.noEnum (by rw [h1.opts]; exact h)
    exact ⟨by rw [a, h1.fence], h1.step.enc.trans b, c⟩

/-! ## A first run of any of the algorithms -/

/-- What is known after a run from a fresh solver. -/
structure RunOK (pb : Pb) (env : Env) (N fuel : Nat) (r : Except Stop Unit) (s' : Slv P C) : Prop where
  panic : r ≠ .error .panic
  error : r = .error .error → LogFail env
  fuel : r = .error .fuel → fuel ≤ N
  front : ∃ cs, FrontOK pb s'.front cs ∧ (r = .ok () →
    List.Forall₂ (EnumFull pb pb.en pb.blk) s'.front cs ∧ ∀ t, pb.NonDom t → pb.costs t ∈ cs)
  log : LogOk s'.io.logger

theorem goodBlocking_ok (hpos : PosUnit inst) (h : GoodBlocking inst bcg) {l : Option Nat}
    (hen : opts.enumeration = .solutions l) : BlockOK (inst.pb opts bcg) (inst.pb opts bcg).blk := by
  intro t ht
  have h1 := h t (Assignment.ofModel t (inst.vm.maxOrigVar + 1)) ((paretoOptimal_iff hpos t).2 ht)
    ((shows_iff _ _).2 rfl)
  have h2 : ∀ (t' : Asg) (c : Clause), clauseEval t' c = false ↔ ¬ ∃ l ∈ c, LitTrue t' l := by
    intro t' c
    rw [← Bool.not_eq_true, not_iff_not]
    simp [clauseEval, Lit.eval_iff]
  refine ⟨bcg (Assignment.ofModel t (inst.vm.maxOrigVar + 1)), ?_, ?_, ?_, ?_⟩
  · simp only [Instance.pb, hen]
  · exact fun l hl => Nat.lt_succ_of_le (h1.1 l hl)
  · intro t' ht'
    exact (h2 _ _).2 (h1.2.1 t' ((agreeBelow_orig (opts := opts) (bcg := bcg) t t').1 ht'))
  · intro t' ht' hf
    exact (weaklyDominates_iff hpos t t').1 (h1.2.2 t' ((feasible_iff t').2 ht') ((h2 _ _).1 hf))

theorem EnumFine.blockOK (hwf : WellFormed inst) (hpos : PosUnit inst) (h : EnumFine inst opts.enumeration bcg)
    (hno : opts.enumeration ≠ .noEnum) : BlockOK (inst.pb opts bcg) (inst.pb opts bcg).blk := by
  generalize hen : opts.enumeration = en at h
  cases h with
  | noEnum => exact absurd hen hno
  | solutions l _ h => exact goodBlocking_ok hpos h hen
  | pmcss l _ h => exact blockOK_pmcs hwf h hen

theorem wp_run {a : M P C Unit} {R : Except Stop Unit → Slv P C → Prop}
    (h : wp env a (fun x s' => R (.ok x) s') (fun e s' => R (.error e) s') s) : R (a env s).1 (a env s).2 := by
  unfold wp at h
  cases hr : a env s with
  | mk r s' =>
    rw [hr] at h
    cases r <;> exact h

/-- Number of iterations that suffices for every loop of every algorithm. -/
def iterBound (inst : Instance) : Nat :=
  (inst.objs.map fun o => maxCost o + 1).prod + (inst.objs.map maxCost).sum + 2 ^ (inst.vm.maxOrigVar + 1) +
    (inst.objs.map maxCost).sum

/-- A state from which the search of an algorithm can be started. -/
structure Prepared (alg : Alg) (inst : Instance) (bcg : Assignment → Clause) (opts : KernelOptions) (s : Slv P C) : Prop where
  core : Core (inst.pb opts bcg) (fun _ => True) [] s
  fence : s.fence = []
  tops : (encTops s).sum ≤ (inst.objs.map maxCost).sum
  base : IoBase inst.objs.length s.io
  bos : alg = .biOptSat → inst.objs.length = 2 ∧ ConstZero (inst.pb opts bcg) s
  opts : s.k.opts = opts
  bcg : s.k.bcg = bcg

theorem started_prepared {alg : Alg} (hwf : WellFormed inst) (h : Started alg inst bcg opts s) :
    Prepared alg inst bcg opts s := by
  have hf := fresh_ok hwf (started_fresh h)
  exact ⟨hf.core, hf.fence, by rw [hf.tops], hf.base,
    by rintro rfl; exact ⟨started_bos h, hf.zero⟩, hf.opts, hf.bcg⟩

theorem Prepared.en {alg : Alg} (h : Prepared alg inst bcg opts s) :
    (inst.pb opts bcg).en = s.k.opts.enumeration ∧ (inst.pb opts bcg).blk = blkOf s.k := by
  refine ⟨by rw [h.opts]; rfl, ?_⟩
  funext sol
  unfold blkOf
  rw [h.opts, h.bcg, h.core.inv.objs]
  rfl

theorem prepared_run (alg : Alg) (hs : Setting inst bcg opts env) {limits : Limits} (hlim : LimitsFine env limits)
    (hf : Prepared alg inst bcg opts s) (fuel : Nat) :
    RunOK (inst.pb opts bcg) env (iterBound inst) fuel (alg.solve fuel limits env s).1 (alg.solve fuel limits env s).2 := by
  have hcov : Cover (inst.pb opts bcg) (fun _ => True) [] := fun t _ => .inl trivial
  have wf := pb_wf (opts := opts) (bcg := bcg) hs.wf
  have hfit := pb_fits (opts := opts) (bcg := bcg) hs.fits
  have hB : (inst.pb opts bcg).bound ≤ iterBound inst := by
    unfold Pb.bound iterBound Pb.boxSize Pb.sumMax Instance.pb; simp only; generalize 2 ^ (inst.vm.maxOrigVar + 1) = x; omega
  -- the state after `start_solving`
  let s1 : Slv P C :=
    { s with io := { s.io with lims := limits, stats := { s.io.stats with nSolveCalls := s.io.stats.nSolveCalls + 1 } } }
  have hio : IoInv env (inst.pb opts bcg).objs.length s1.io :=
    ⟨hf.base, fun hd => ⟨(hlim hd).pps, (hlim hd).sols, (hlim hd).candidates, (hlim hd).oracleCalls⟩⟩
  have hsame : Same s s1 := ⟨rfl, rfl, rfl, rfl⟩
  have hcore : Core (inst.pb opts bcg) (fun _ => True) [] s1 :=
    hf.core.grow hsame.step.toGrow hf.core.abs (hf.core.inv.same hsame)
  have hpb : (inst.pb opts bcg).en = s1.k.opts.enumeration ∧ (inst.pb opts bcg).blk = blkOf s1.k := hf.en
  have hblk : s1.k.opts.enumeration ≠ .noEnum → BlockOK (inst.pb opts bcg) (blkOf s1.k) := by
    intro h
    rw [← hpb.2]
    exact EnumFine.blockOK hs.wf hs.unit hs.enum (by rw [← hf.opts]; exact h)
  -- from the invariant after a complete run
  have hdone : ∀ (s2 : Slv P C) A' cs', LogOk s2.io.logger → Core (inst.pb opts bcg) A' cs' s2 → s2.k.opts = s1.k.opts → s2.k.bcg = s1.k.bcg →
      (Cover (inst.pb opts bcg) (fun _ => True) [] → Cover (inst.pb opts bcg) A' cs') →
      (∀ t, (inst.pb opts bcg).Sol t → ¬ A' t) → RunOK (inst.pb opts bcg) env (iterBound inst) fuel (.ok ()) s2 := by
    intro s2 A' cs' h0 h1 h2 h3 h4 h5
    refine ⟨by simp, by simp, by simp, ⟨cs', h1.front, fun _ => ⟨?_, fun t ht => ?_⟩⟩, h0⟩
    · have : blkOf s2.k = blkOf s1.k := by unfold blkOf; rw [h2, h3, h1.inv.objs, ← hcore.inv.objs]
      rw [hpb.1, hpb.2, ← h2, ← this]
      exact h1.full
    · exact (h4 hcov t ht).resolve_left (h5 t ht.1)
  apply wp_run
  cases alg with
  | pMinimal =>
    unfold Alg.solve pminSolve startSolving
    rw [wp_bind, wp_modifyS]
    refine wp_pminMain wf (CorrectOracle.ok hs.oracle) hs.tok hfit hio hcore hblk hpb fuel ?_ ?_
    · intro s2 hio2 hext ⟨A2, cs2, h1, h2, h3⟩
      exact hdone s2 A2 cs2 hio2.base.2 h1 hext.opts hext.bcg h2 h3
    · intro e s2 h
      obtain ⟨cs2, hfr⟩ := h.front
      exact ⟨by have := h.panic; simpa using this, by simpa using h.error, fun h' => Nat.le_trans (h.fuel (by simpa using h')) hB,
        ⟨cs2, hfr, by simp⟩, h.base.2⟩
  | lowerBounding =>
    unfold Alg.solve lbSolve startSolving
    rw [wp_bind, wp_modifyS]
    refine wp_lbMain wf (CorrectOracle.ok hs.oracle) hs.tok hfit hio hcore (.inl hf.fence) hblk hpb fuel ?_ ?_
    · intro s2 h
      obtain ⟨A2, cs2, h1, h2, h3⟩ := h.core
      exact hdone s2 A2 cs2 h.io.base.2 h1 h.opts h.bcg h2 h3
    · intro e s2 h
      obtain ⟨cs2, hfr⟩ := h.front
      refine ⟨by have := h.panic; simpa using this, by simpa using h.error, fun h' => ?_, ⟨cs2, hfr, by simp⟩, h.base.2⟩
      have h4 := h.fuel (by simpa using h')
      have h5 : (encTops s1).sum ≤ (inst.objs.map maxCost).sum := hf.tops
      exact Nat.le_trans h4 (Nat.add_le_add_left h5 _)
  | biOptSat =>
    unfold Alg.solve bosSolve startSolving
    rw [wp_bind, wp_modifyS]
    obtain ⟨hlen, hzero⟩ := hf.bos rfl
    obtain ⟨o0, o1, hobjs⟩ : ∃ o0 o1, (inst.pb opts bcg).objs = [o0, o1] := by
      have : (inst.pb opts bcg).objs = inst.objs := rfl
      rw [this]
      match h : inst.objs, hlen with
      | [a, b], _ => exact ⟨a, b, rfl⟩
    refine wp_bosMain wf (CorrectOracle.ok hs.oracle) hs.tok hfit hobjs hio hcore (fun _ _ _ _ _ _ => trivial) hcov BosOrder.nil
      (hzero.encStep hsame.step.enc) hblk hpb fuel ?_ ?_
    · intro s2 h
      obtain ⟨cs2, h1, h2, h3⟩ := h.front
      refine ⟨by simp, by simp, by simp, ⟨cs2, h1, fun _ => ⟨?_, h3.1⟩⟩, h.io.base.2⟩
      rw [hpb.1, hpb.2]
      have hb : blkOf s2.k = blkOf s1.k := by
        unfold blkOf
        rw [h.opts, h.bcg, h.objs]
      rw [← h.opts, ← hb]
      exact h2
    · intro e s2 h
      obtain ⟨cs2, hfr, -⟩ := h.front
      exact ⟨by have := h.panic; simpa using this, by simpa using h.error, fun h' => Nat.le_trans (h.fuel (by simpa using h')) hB,
        ⟨cs2, hfr, by simp⟩, h.base.2⟩

theorem run_ok (alg : Alg) (hs : Setting inst bcg opts env) {limits : Limits} (hlim : LimitsFine env limits)
    (hst : Started alg inst bcg opts s) (fuel : Nat) :
    RunOK (inst.pb opts bcg) env (iterBound inst) fuel (alg.solve fuel limits env s).1 (alg.solve fuel limits env s).2 :=
  prepared_run alg hs hlim (started_prepared hs.wf hst) fuel

/-! ## Reading the front -/

theorem FrontOK.mem {front : ParetoFront Assignment} {cs : List (List Nat)} (h : FrontOK pb front cs)
    {p : NonDomPoint Assignment} (hp : p ∈ front) : ∃ c ∈ cs, PointOK pb p c := by
  have := h.points
  clear h
  induction this with
  | nil => simp at hp
  | cons h1 _ ih =>
    rcases List.mem_cons.1 hp with rfl | hp
    · exact ⟨_, by simp, h1⟩
    · obtain ⟨c, h2, h3⟩ := ih hp
      exact ⟨c, by simp [h2], h3⟩

theorem forall₂_mem_right {α β : Type} {R : α → β → Prop} {l : List α} {k : List β} (h : List.Forall₂ R l k) {b : β}
    (hb : b ∈ k) : ∃ a ∈ l, R a b := by
  induction h with
  | nil => simp at hb
  | cons h1 _ ih =>
    rcases List.mem_cons.1 hb with rfl | hb
    · exact ⟨_, by simp, h1⟩
    · obtain ⟨a, h2, h3⟩ := ih hb
      exact ⟨a, by simp [h2], h3⟩

theorem forall₂_mem_right₂ {α β : Type} {R R' : α → β → Prop} {l : List α} {k : List β} (h : List.Forall₂ R l k)
    (h' : List.Forall₂ R' l k) {b : β} (hb : b ∈ k) : ∃ a ∈ l, R a b ∧ R' a b := by
  induction h with
  | nil => simp at hb
  | cons h1 _ ih =>
    cases h' with
    | cons h1' h2' =>
      rcases List.mem_cons.1 hb with rfl | hb
      · exact ⟨_, by simp, h1, h1'⟩
      · obtain ⟨a, h2, h3⟩ := ih h2' hb
        exact ⟨a, by simp [h2], h3⟩

theorem ofModel_congr {n : Nat} {t t' : Asg} (h : AgreeBelow n t t') : Assignment.ofModel t n = Assignment.ofModel t' n := by
  unfold Assignment.ofModel
  refine List.map_congr_left fun v hv => ?_
  rw [h v (List.mem_range.1 hv)]

theorem FrontOK.soundFront (hpos : PosUnit inst) {front : ParetoFront Assignment} {cs : List (List Nat)}
    (h : FrontOK (inst.pb opts bcg) front cs) : SoundFront inst front := by
  refine ⟨?_, ?_⟩
  · intro p hp
    obtain ⟨c, -, hc⟩ := h.mem hp
    obtain ⟨t, h1, -, h3⟩ := hc.costs
    exact ⟨t, (paretoOptimal_iff hpos t).2 h1, by rw [h3, costs_eq]⟩
  · have hn := h.nodup
    have hp := h.points
    clear h
    induction hp with
    | nil => simp
    | @cons p c front cs h1 h2 ih =>
      simp only [List.map_cons, List.nodup_cons] at hn ⊢
      refine ⟨?_, ih hn.2⟩
      intro hm
      obtain ⟨q, hq, hqc⟩ := List.mem_map.1 hm
      obtain ⟨c', hc', hq'⟩ := FrontOK.mem ⟨h2, hn.2⟩ hq
      obtain ⟨t, -, a2, a3⟩ := h1.costs
      obtain ⟨t', -, b2, b3⟩ := hq'.costs
      rw [a3, b3, ← costs_eq, ← costs_eq, costs_eq_iff (opts := opts) (bcg := bcg) hpos, a2, b2] at hqc
      subst hqc
      exact hn.1 hc'

theorem FrontOK.solutionsOK {front : ParetoFront Assignment} {cs : List (List Nat)}
    (h : FrontOK (inst.pb opts bcg) front cs) : SolutionsOK inst front := by
  refine ⟨?_, ?_⟩
  · intro p hp
    obtain ⟨c, -, hc⟩ := h.mem hp
    exact hc.nonempty
  · intro p hp x hx
    obtain ⟨c, -, hc⟩ := h.mem hp
    obtain ⟨t, h1, h2, h3⟩ := hc.costs
    obtain ⟨t', g1, g2, g3⟩ := hc.sols x hx
    refine ⟨t', (feasible_iff t').2 g1.1, ?_, (shows_iff _ _).2 g3⟩
    rw [h3, costs_eq (opts := opts) (bcg := bcg)]
    have : (inst.pb opts bcg).costs t' = (inst.pb opts bcg).costs t := by rw [h2, g2]
    unfold Pb.ext
    unfold Pb.costs at this
    rw [List.map_inj_left] at this ⊢
    intro o ho
    unfold extVal
    rw [this o ho]

theorem RunOK.exactFront {N fuel : Nat} {s' : Slv P C} (hpos : PosUnit inst)
    (h : RunOK (inst.pb opts bcg) env N fuel (.ok ()) s') : ExactFront inst s'.front := by
  obtain ⟨cs, h1, h2⟩ := h.front
  obtain ⟨-, h3⟩ := h2 rfl
  have hs := h1.soundFront hpos
  refine ⟨fun v => ⟨?_, ?_⟩, hs.once⟩
  · intro hv
    obtain ⟨p, hp, rfl⟩ := List.mem_map.1 hv
    exact hs.sound p hp
  · rintro ⟨t, ht, rfl⟩
    obtain ⟨p, hp, hpc⟩ := forall₂_mem_right h1.points (h3 t ((paretoOptimal_iff hpos t).1 ht))
    refine List.mem_map.2 ⟨p, hp, ?_⟩
    obtain ⟨t', g1, g2, g3⟩ := hpc.costs
    rw [g3, ← costs_eq, costs_eq_iff (opts := opts) (bcg := bcg) hpos, g2]

end Scuttle
