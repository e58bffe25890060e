import Verif.Proof.Solve

/-!
# Several calls to `solve` on one solver
-/

set_option linter.unusedSectionVars false

namespace Scuttle

open Spec

variable {P C : Type} [UbEnc P] [UbEnc C] [LawfulUbEnc P] [LawfulUbEnc C]
variable {env : Env} {s : Slv P C} {inst : Instance} {opts : KernelOptions} {bcg : Assignment → Clause}

/-- What holds between calls: the invariant of the search, with the front covering everything that is blocked if `cov`. -/
structure Between (inst : Instance) (bcg : Assignment → Clause) (opts : KernelOptions) (cov : Prop) (s : Slv P C) : Prop where
  core : ∃ A cs, Core (inst.pb opts bcg) A cs s ∧ (cov → Cover (inst.pb opts bcg) A cs)
  fence : FenceOK s
  tops : encTops s = inst.objs.map maxCost
  base : IoBase inst.objs.length s.io
  opts : s.k.opts = opts
  bcg : s.k.bcg = bcg

theorem FreshOK.between (h : FreshOK inst bcg opts s) : Between inst bcg opts True s :=
  ⟨⟨_, _, h.core, fun _ => h.cover⟩, .inl h.fence, h.tops, h.base, h.opts, h.bcg⟩

theorem Between.logger {cov : Prop} (h : Between inst bcg opts cov s) {lg : Option (List LogEvent)}
    (hlg : LogOk lg) :
    Between inst bcg opts cov { s with io := { s.io with logger := lg } } := by
  obtain ⟨A, cs, h1, h2⟩ := h.core
  have hsame : Same s { s with io := { s.io with logger := lg } } := ⟨rfl, rfl, rfl, rfl⟩
  exact ⟨⟨A, cs, h1.grow hsame.step.toGrow h1.abs (h1.inv.same hsame), h2⟩, h.fence.encStep rfl hsame.step.enc, h.tops,
    ⟨h.base.1, hlg⟩, h.opts, h.bcg⟩

/-- Ends of a call after which nothing is lost. -/
def Lossless (r : Except Stop Unit) : Prop :=
  r = .ok () ∨ r = .error (.terminated .ppLimit) ∨ r = .error (.terminated .solsLimit)

/-- What is known after one more call. -/
structure CallOK (inst : Instance) (bcg : Assignment → Clause) (opts : KernelOptions) (env : Env) (cov : Prop) (fuel : Nat)
    (r : Except Stop Unit) (s' : Slv P C) : Prop where
  panic : r ≠ .error .panic
  error : r = .error .error → LogFail env
  fuel : r = .error .fuel → fuel ≤ iterBound inst
  between : Between inst bcg opts (cov ∧ Lossless r) s'
  done : r = .ok () → ∃ A cs, Core (inst.pb opts bcg) A cs s' ∧ (cov → Cover (inst.pb opts bcg) A cs) ∧
    ∀ t, (inst.pb opts bcg).Sol t → ¬ A t

/-- One more call. -/
theorem Between.solve {alg : Alg} {cov : Prop} (h : Between inst bcg opts cov s) (halg : alg ≠ .biOptSat)
    (hs : Setting inst bcg opts env) (hno : opts.enumeration = .noEnum) {limits : Limits} (hlim : LimitsFine env limits)
    (fuel : Nat) :
    CallOK inst bcg opts env cov fuel (alg.solve fuel limits env s).1 (alg.solve fuel limits env s).2 := by
  obtain ⟨A, cs, hcore0, hcov⟩ := h.core
  have wf := pb_wf (opts := opts) (bcg := bcg) hs.wf
  have hfit := pb_fits (opts := opts) (bcg := bcg) hs.fits
  have hB : (inst.pb opts bcg).bound ≤ iterBound inst := by
    unfold Pb.bound iterBound Pb.boxSize Pb.sumMax Instance.pb; simp only; generalize 2 ^ (inst.vm.maxOrigVar + 1) = x; omega
  let s1 : Slv P C :=
    { s with io := { s.io with lims := limits, stats := { s.io.stats with nSolveCalls := s.io.stats.nSolveCalls + 1 } } }
  have hio : IoInv env (inst.pb opts bcg).objs.length s1.io :=
    ⟨h.base, fun hd => ⟨(hlim hd).pps, (hlim hd).sols, (hlim hd).candidates, (hlim hd).oracleCalls⟩⟩
  have hsame : Same s s1 := ⟨rfl, rfl, rfl, rfl⟩
  have hcore : Core (inst.pb opts bcg) A cs s1 := hcore0.grow hsame.step.toGrow hcore0.abs (hcore0.inv.same hsame)
  have hen1 : s1.k.opts.enumeration = .noEnum := by rw [show s1.k.opts = opts from h.opts]; exact hno
  have hpb : (inst.pb opts bcg).en = s1.k.opts.enumeration ∧ (inst.pb opts bcg).blk = blkOf s1.k := by
    refine ⟨by rw [show s1.k.opts = opts from h.opts]; rfl, ?_⟩
    funext sol
    unfold blkOf
    rw [show s1.k.opts = opts from h.opts, hcore.inv.objs, show s1.k.bcg = bcg from h.bcg]
    rfl
  have hblk : s1.k.opts.enumeration ≠ .noEnum → BlockOK (inst.pb opts bcg) (blkOf s1.k) := fun h => absurd hen1 h
  apply wp_run
  cases alg with
  | pMinimal =>
    unfold Alg.solve pminSolve startSolving
    rw [wp_bind, wp_modifyS]
    refine wp_pminMain wf (CorrectOracle.ok hs.oracle) hs.tok hfit hio hcore hblk hpb fuel ?_ ?_
    · intro s2 hio2 hext ⟨A2, cs2, h1, h2, h3⟩
      refine ⟨by simp, by simp, by simp, ⟨⟨A2, cs2, h1, fun hc => h2 (hcov hc.1)⟩, ?_, ?_, hio2.base, ?_, ?_⟩,
        fun _ => ⟨A2, cs2, h1, fun hc => h2 (hcov hc), h3⟩⟩
      · exact h.fence.encStep hext.fence (hsame.step.enc.trans hext.enc)
      · rw [hext.enc.tops]; exact h.tops
      · rw [hext.opts]; exact h.opts
      · rw [hext.bcg]; exact h.bcg
    · intro e s2 hst
      obtain ⟨a, b, A2, cs2, h1, h2⟩ := hst.noEnum hen1
      refine ⟨by have := hst.panic; simpa using this, by simpa using hst.error,
        fun h' => Nat.le_trans (hst.fuel (by simpa using h')) hB,
        ⟨⟨A2, cs2, h1, fun hc => h2 (by simpa [Lossless] using hc.2) (hcov hc.1)⟩, ?_, ?_, hst.base, ?_, ?_⟩, by simp⟩
      · exact h.fence.encStep a (hsame.step.enc.trans b)
      · rw [b.tops]; exact h.tops
      · rw [hst.opts]; exact h.opts
      · rw [hst.bcg]; exact h.bcg
  | lowerBounding =>
    unfold Alg.solve lbSolve startSolving
    rw [wp_bind, wp_modifyS]
    refine wp_lbMain wf (CorrectOracle.ok hs.oracle) hs.tok hfit hio hcore (h.fence.encStep rfl hsame.step.enc) hblk hpb fuel ?_ ?_
    · intro s2 hd
      obtain ⟨A2, cs2, h1, h2, h3⟩ := hd.core
      refine ⟨by simp, by simp, by simp, ⟨⟨A2, cs2, h1, fun hc => h2 (hcov hc.1)⟩, hd.fence.1, ?_, hd.io.base, ?_, ?_⟩,
        fun _ => ⟨A2, cs2, h1, fun hc => h2 (hcov hc), h3⟩⟩
      · rw [hd.fence.2.2]; exact h.tops
      · rw [hd.opts]; exact h.opts
      · rw [hd.bcg]; exact h.bcg
    · intro e s2 hst
      obtain ⟨a, -, b, A2, cs2, h1, h2⟩ := hst.noEnum hen1
      refine ⟨by have := hst.panic; simpa using this, by simpa using hst.error, fun h' => ?_,
        ⟨⟨A2, cs2, h1, fun hc => h2 (by simpa [Lossless] using hc.2) (hcov hc.1)⟩, a, ?_, hst.base, ?_, ?_⟩, by simp⟩
      · have h4 := hst.fuel (by simpa using h')
        have h5 : encTops s1 = inst.objs.map maxCost := h.tops
        rw [h5] at h4
        exact h4
      · rw [b]; exact h.tops
      · rw [hst.opts]; exact h.opts
      · rw [hst.bcg]; exact h.bcg
  | biOptSat => exact absurd rfl halg

/-- Calls with limits that are fine. -/
def CallsFine (env : Env) (cs : List Call) : Prop := ∀ fuel limits, .solve fuel limits ∈ cs → LimitsFine env limits

theorem Between.calls {alg : Alg} (halg : alg ≠ .biOptSat) (hs : Setting inst bcg opts env)
    (hno : opts.enumeration = .noEnum) (calls : List Call) (hc : CallsFine env calls) {cov : Prop} {s : Slv P C}
    (h : Between inst bcg opts cov s) :
    Between inst bcg opts (cov ∧ ∀ r ∈ (alg.calls env calls s).1, Lossless r) (alg.calls env calls s).2 ∧
    ∀ r ∈ (alg.calls env calls s).1, r ≠ .error .panic ∧ (r = .error .error → LogFail env) := by
  induction calls generalizing s cov with
  | nil =>
    refine ⟨?_, by simp [Alg.calls]⟩
    obtain ⟨A, cs, h1, h2⟩ := h.core
    exact ⟨⟨A, cs, h1, fun hc => h2 hc.1⟩, h.fence, h.tops, h.base, h.opts, h.bcg⟩
  | cons c calls ih =>
    have hc' : CallsFine env calls := fun f l hm => hc f l (by simp [hm])
    cases c with
    | solve fuel limits =>
      have h1 := h.solve halg hs hno (hc fuel limits (by simp)) fuel
      obtain ⟨h2, h3⟩ := ih hc' h1.between
      simp only [Alg.calls, List.mem_cons, forall_eq_or_imp]
      refine ⟨?_, ⟨h1.panic, h1.error⟩, h3⟩
      obtain ⟨A, cs, g1, g2⟩ := h2.core
      exact ⟨⟨A, cs, g1, fun hc => g2 ⟨⟨hc.1, hc.2.1⟩, hc.2.2⟩⟩, h2.fence, h2.tops, h2.base, h2.opts, h2.bcg⟩
    | attachLogger => exact ih hc' (h.logger LogOk.empty)
    | detachLogger => exact ih hc' (h.logger LogOk.none)

end Scuttle
