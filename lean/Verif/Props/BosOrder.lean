import Verif.SpecBosOrder
import Verif.Props.CoreBoost
import Verif.Props.DistinctLog

/-!
# C73: BiOptSat finds the points from left to right
-/

set_option linter.unusedSectionVars false

namespace Scuttle

open Spec

variable {P C : Type} [UbEnc P] [UbEnc C] [LawfulUbEnc P] [LawfulUbEnc C] {env : Env} {s : Slv P C} {inst : Instance}
  {opts : KernelOptions} {bcg : Assignment → Clause} {limits : Limits}

/-- The order of the internal costs. -/
theorem prepared_order (hs : Setting inst bcg opts env) (hlim : LimitsFine env limits) (hf : Prepared .biOptSat inst bcg opts s)
    (fuel : Nat) : ∃ cs, FrontOK (inst.pb opts bcg) (Alg.biOptSat.solve fuel limits env s).2.front cs ∧
      BosOrder (inst.pb opts bcg) cs := by
  have wf := pb_wf (opts := opts) (bcg := bcg) hs.wf
  have hfit := pb_fits (opts := opts) (bcg := bcg) hs.fits
  let s1 : Slv P C :=
    { s with io := { s.io with lims := limits, stats := { s.io.stats with nSolveCalls := s.io.stats.nSolveCalls + 1 } } }
  have hio : IoInv env (inst.pb opts bcg).objs.length s1.io :=
    ⟨hf.base, fun hd => ⟨(hlim hd).pps, (hlim hd).sols, (hlim hd).candidates, (hlim hd).oracleCalls⟩⟩
  have hsame : Same s s1 := ⟨rfl, rfl, rfl, rfl⟩
  have hcore : Core (inst.pb opts bcg) (fun _ => True) [] s1 :=
    hf.core.grow hsame.step.toGrow hf.core.abs (hf.core.inv.same hsame)
  have hpb : (inst.pb opts bcg).en = s1.k.opts.enumeration ∧ (inst.pb opts bcg).blk = blkOf s1.k := hf.en
  have hblk : s1.k.opts.enumeration ≠ .noEnum → BlockOK (inst.pb opts bcg) (blkOf s1.k) := by
    intro h
    rw [← hpb.2]
    exact EnumFine.blockOK hs.wf hs.unit hs.enum (by rw [← hf.opts]; exact h)
  obtain ⟨hlen, hzero⟩ := hf.bos rfl
  obtain ⟨o0, o1, hobjs⟩ : ∃ o0 o1, (inst.pb opts bcg).objs = [o0, o1] := by
    have : (inst.pb opts bcg).objs = inst.objs := rfl
    rw [this]
    match h : inst.objs, hlen with
    | [a, b], _ => exact ⟨a, b, rfl⟩
  have key : wp env (Alg.biOptSat.solve fuel limits)
      (fun _ s' => ∃ cs, FrontOK (inst.pb opts bcg) s'.front cs ∧ BosOrder (inst.pb opts bcg) cs)
      (fun _ s' => ∃ cs, FrontOK (inst.pb opts bcg) s'.front cs ∧ BosOrder (inst.pb opts bcg) cs) s := by
    unfold Alg.solve bosSolve startSolving
    rw [wp_bind, wp_modifyS]
    refine wp_bosMain wf (CorrectOracle.ok hs.oracle) hs.tok hfit hobjs hio hcore (fun _ _ _ _ _ _ => trivial)
      (fun t _ => .inl trivial) BosOrder.nil (hzero.encStep hsame.step.enc) hblk hpb fuel ?_ ?_
    · intro s2 h
      obtain ⟨cs2, h1, -, -, h2⟩ := h.front
      exact ⟨cs2, h1, h2⟩
    · intro e s2 h
      exact h.front
  unfold wp at key
  revert key
  rcases Alg.biOptSat.solve fuel limits env s with ⟨r, s'⟩
  cases r <;> exact fun h => h

/-- Costs of different points that are not dominated. -/
theorem before_of_lt (hpos : PosUnit inst) (hlen : inst.objs.length = 2) {t t' : Asg} (h : (inst.pb opts bcg).NonDom t)
    (h' : (inst.pb opts bcg).NonDom t')
    (hlt : ((inst.pb opts bcg).costs t').getD 1 0 < ((inst.pb opts bcg).costs t).getD 1 0) :
    Before ((inst.pb opts bcg).ext t) ((inst.pb opts bcg).ext t') := by
  obtain ⟨o0, o1, hobjs⟩ : ∃ o0 o1, inst.objs = [o0, o1] := by
    match h : inst.objs, hlen with
    | [a, b], _ => exact ⟨a, b, rfl⟩
  have hobjs' : (inst.pb opts bcg).objs = [o0, o1] := hobjs
  have hcosts : ∀ t, (inst.pb opts bcg).costs t = [icost o0 t, icost o1 t] := by intro t; simp [Pb.costs, hobjs']
  have hext : ∀ t, (inst.pb opts bcg).ext t = [extVal o0 t, extVal o1 t] := by intro t; simp [Pb.ext, hobjs']
  have w0 : 0 < o0.unitWeight := unitWeight_pos hpos (by rw [hobjs]; simp)
  have w1 : 0 < o1.unitWeight := unitWeight_pos hpos (by rw [hobjs]; simp)
  rw [hcosts, hcosts] at hlt
  simp only [List.getD_cons_succ, List.getD_cons_zero] at hlt
  have hlt0 : icost o0 t < icost o0 t' := by
    by_contra hcon
    have := h.2 t' h'.1 (by rw [hcosts, hcosts]; exact .cons (by omega) (.cons (by omega) .nil))
    rw [hcosts, hcosts] at this
    simp only [List.cons.injEq, and_true] at this
    omega
  refine ⟨_, _, _, _, hext t, hext t', ?_, ?_⟩ <;> unfold extVal
  · have := Nat.mul_lt_mul_of_pos_right hlt0 w0
    omega
  · have := Nat.mul_lt_mul_of_pos_right hlt w1
    omega

theorem FrontOK.leftPart (hpos : PosUnit inst) (hlen : inst.objs.length = 2) {front : ParetoFront Assignment}
    {cs : List (List Nat)} (h : FrontOK (inst.pb opts bcg) front cs) (ho : BosOrder (inst.pb opts bcg) cs) :
    LeftPart inst front := by
  refine ⟨?_, ?_⟩
  · have hd := ho.dec
    have hn := h.nodup
    have hp := h.points
    clear h ho
    induction hp with
    | nil => exact List.Pairwise.nil
    | @cons p c front cs h1 h2 ih =>
      rw [List.pairwise_cons] at hd ⊢
      refine ⟨fun q hq => ?_, ih hd.2 (List.nodup_cons.1 hn).2⟩
      obtain ⟨c', hc', hq'⟩ := FrontOK.mem ⟨h2, (List.nodup_cons.1 hn).2⟩ hq
      obtain ⟨t, a1, a2, a3⟩ := h1.costs
      obtain ⟨t', b1, b2, b3⟩ := hq'.costs
      rw [a3, b3]
      exact before_of_lt hpos hlen a1 b1 (by rw [a2, b2]; exact hd.1 c' hc')
  · rintro v ⟨t, ht, rfl⟩
    have hnd := (paretoOptimal_iff (opts := opts) (bcg := bcg) hpos t).1 ht
    rcases ho.gap t hnd with hm | hm
    · left
      obtain ⟨p, hp, hpc⟩ := h.point hm
      refine List.mem_map.2 ⟨p, hp, ?_⟩
      obtain ⟨t', g1, g2, g3⟩ := hpc.costs
      rw [g3, ← costs_eq, costs_eq_iff (opts := opts) (bcg := bcg) hpos, g2]
    · right
      intro p hp
      obtain ⟨c, hc, hpc⟩ := h.mem hp
      obtain ⟨t', g1, g2, g3⟩ := hpc.costs
      rw [g3, costs_eq (opts := opts) (bcg := bcg)]
      exact before_of_lt hpos hlen g1 hnd (by rw [g2]; exact hm c hc)

/-! ## The theorems -/

/-- C73: however `solve` of BiOptSat on a fresh solver ends, the points of the front are listed in increasing order of the first
objective and decreasing order of the second, and no point of the Pareto front between or before them is missing. -/
theorem bioptsat_left_to_right (hs : Setting inst bcg opts env) (hl : LimitsFine env limits)
    (h0 : Started .biOptSat inst bcg opts s) (fuel : Nat) :
    LeftPart inst (Alg.biOptSat.solve fuel limits env s).2.front := by
  obtain ⟨cs, h1, h2⟩ := prepared_order hs hl (started_prepared hs.wf h0) fuel
  exact h1.leftPart hs.unit (started_bos h0) h2

/-- C73: in particular, the first point is the lexicographic optimum. -/
theorem bioptsat_first_point (hs : Setting inst bcg opts env) (hl : LimitsFine env limits)
    (h0 : Started .biOptSat inst bcg opts s) (fuel : Nat) {p : NonDomPoint Assignment} {ps : ParetoFront Assignment}
    (hp : (Alg.biOptSat.solve fuel limits env s).2.front = p :: ps) :
    ∀ t, (problem inst).Feasible t → ∃ a b c d, p.costs = [a, b] ∧ (problem inst).costs t = [c, d] ∧
      (a < c ∨ a = c ∧ b ≤ d) := by
  intro t ht
  have h := bioptsat_left_to_right hs hl h0 fuel
  rw [hp] at h
  have hpos := hs.unit
  obtain ⟨t', h1, h2⟩ := (inst.pb opts bcg).exists_nonDom_le t ((feasible_iff t).1 ht)
  obtain ⟨o0, o1, hobjs⟩ : ∃ o0 o1, inst.objs = [o0, o1] := by
    match h : inst.objs, started_bos h0 with
    | [a, b], _ => exact ⟨a, b, rfl⟩
  have hobjs' : (inst.pb opts bcg).objs = [o0, o1] := hobjs
  have hcosts : ∀ t, (inst.pb opts bcg).costs t = [icost o0 t, icost o1 t] := by intro t; simp [Pb.costs, hobjs']
  have hext : ∀ t, (problem inst).costs t = [extVal o0 t, extVal o1 t] := by
    intro t; rw [costs_eq (opts := opts) (bcg := bcg)]; simp [Pb.ext, hobjs']
  -- the costs of `t'` are at most those of `t`
  have hle : extVal o0 t' ≤ extVal o0 t ∧ extVal o1 t' ≤ extVal o1 t := by
    rw [hcosts, hcosts] at h2
    cases h2 with
    | cons a1 a2 =>
      cases a2 with
      | cons a2 _ =>
        unfold extVal
        have := Nat.mul_le_mul_right o0.unitWeight a1
        have := Nat.mul_le_mul_right o1.unitWeight a2
        omega
  -- `p` is the point of `t'` or before it
  have hb : p.costs = (problem inst).costs t' ∨ Before p.costs ((problem inst).costs t') := by
    rcases h.missing _ ⟨t', (paretoOptimal_iff hpos t').2 h1, rfl⟩ with hm | hm
    · obtain ⟨q, hq, hqc⟩ := List.mem_map.1 hm
      rcases List.mem_cons.1 hq with rfl | hq
      · exact .inl hqc
      · rw [← hqc]
        exact .inr ((List.pairwise_cons.1 h.sorted).1 q hq)
    · exact .inr (hm p List.mem_cons_self)
  rcases hb with hb | ⟨a, b, c, d, e1, e2, e3, e4⟩
  · refine ⟨_, _, _, _, hb.trans (hext t'), hext t, ?_⟩
    omega
  · rw [hext, List.cons.injEq, List.cons.injEq] at e2
    refine ⟨a, b, _, _, e1, hext t, .inl ?_⟩
    omega

variable {D : Type} [TotDb D] [LawfulTotDb D] [MergeEnc P C D] [LawfulMergeEnc P C D]

/-- C73: the same after core boosting, if no objective is flat (C48). -/
theorem coreBoost_bioptsat_left_to_right {cb : CbOptions} (hs : Setting inst bcg opts env) (hl : LimitsFine env limits)
    (nd : NoDupCores env) (hn : NoDupLits inst) (h0 : Started .biOptSat inst bcg opts s) (hflat : NotFlat inst)
    (fuel fuel' : Nat) (hb : (coreBoost D fuel cb env s).1 = .ok true) :
    LeftPart inst (Alg.biOptSat.solve fuel' limits env (coreBoost D fuel cb env s).2).2.front := by
  obtain ⟨h1, h2, -⟩ := boosted_of_ok hs nd hn h0 hb
  have hp := h1.prepared (fresh_ok hs.wf (started_fresh h0)) h2 .biOptSat
    fun _ => ⟨started_bos h0, h1.constZero hs.unit hflat⟩
  have hs' := h1.rel.setting hs
  obtain ⟨cs, h3, h4⟩ := prepared_order hs' hl hp fuel'
  have h5 := h3.leftPart hs'.unit (hp.bos rfl).1 h4
  exact ⟨h5.sorted, by have := h5.missing; rw [h1.rel.problem] at this; exact this⟩

/-! ## Examples -/

/-- Points (0, 3), (1, 2), (2, 1) and (3, 0): each clause has to be paid for in one of the objectives. -/
def Example.line : Instance where
  clauses := [[Lit.pos 0, Lit.pos 2], [Lit.pos 1, Lit.pos 3]]
  objs := [.weighted 0 [(Lit.pos 0, 1), (Lit.pos 1, 2)] 0 0, .weighted 0 [(Lit.pos 2, 1), (Lit.pos 3, 2)] 1 0]
  vm := ⟨4, 3, 3⟩

theorem Example.line_setting : Setting Example.line defaultBlockingClause {} (refEnv true) where
  wf := ⟨by decide, by decide, by decide, by decide⟩
  fits := Example.fitsIsize_of_sum (by decide)
  unit := by
    intro off w lits i lb h
    simp [Example.line] at h
  enum := .noEnum _
  oracle := refEnv_correct true
  tight h := by simp [refEnv] at h

/-- Costs of the points after a call, and whether it is `Done`. -/
def Example.pointsOf (inst : Instance) (alg : Alg) (limits : Limits) : Option (Bool × List (List Int)) :=
  (alg.new (P := RefEnc 1) (C := RefEnc 0) inst defaultBlockingClause {}).map fun s =>
    let r := alg.solve 50 limits (refEnv true) s
    (match r.1 with | .ok () => true | _ => false, r.2.front.map NonDomPoint.costs)

/-- A complete call, and calls with a limit on the points and on the oracle calls. -/
example : Example.pointsOf Example.line .biOptSat Limits.none = some (true, [[0, 3], [1, 2], [2, 1], [3, 0]]) ∧
    Example.pointsOf Example.line .biOptSat { pps := some 1 } = some (false, [[0, 3]]) ∧
    Example.pointsOf Example.line .biOptSat { oracleCalls := some 8 } = some (false, [[0, 3], [1, 2]]) :=
  ⟨by decide +kernel, by decide +kernel, by decide +kernel⟩

/-- After core boosting, with an instance that is not flat. -/
example : NotFlat Example.inst ∧
    Example.boosted [2, 0] [[0, 6], [3, 1]] (Example.boost Example.inst refEnv .biOptSat {} { rebase := true }) ∧
    Before [0, 6] [3, 1] :=
  ⟨Example.notFlat, by decide +kernel, 0, 6, 3, 1, rfl, rfl, by decide, by decide⟩

/-- The other algorithms do not find the points in this order: the first points that P-minimal and lower-bounding find do not
include (0, 3), and P-minimal leaves out (2, 1) between its points. -/
theorem others_not_left_to_right :
    Example.pointsOf Example.line .pMinimal { pps := some 2 } = some (false, [[3, 0], [1, 2]]) ∧
    Example.pointsOf Example.line .lowerBounding { pps := some 2 } = some (false, [[1, 2], [2, 1]]) ∧
    ¬ LeftPart Example.line [⟨[3, 0], [()]⟩, ⟨[1, 2], [()]⟩] ∧ ¬ LeftPart Example.line [⟨[1, 2], [()]⟩, ⟨[2, 1], [()]⟩] := by
  refine ⟨by decide +kernel, by decide +kernel, fun h => ?_, fun h => ?_⟩
  · obtain ⟨a, b, c, d, h1, h2, h3, -⟩ := (List.pairwise_cons.1 h.sorted).1 _ (List.mem_singleton_self _)
    simp only [List.cons.injEq, and_true] at h1 h2
    omega
  · have hn : (problem Example.line).NonDominated [0, 3] := by
      refine ⟨fun v => v == 2 || v == 3, ⟨?_, fun t ht hd => ?_⟩, by decide⟩
      · intro c hc
        simp only [problem, Example.line, List.mem_cons, List.not_mem_nil, or_false] at hc
        rcases hc with rfl | rfl
        · exact ⟨Lit.pos 2, by simp, rfl⟩
        · exact ⟨Lit.pos 3, by simp, rfl⟩
      · have c0 := ht [Lit.pos 0, Lit.pos 2] (by simp [problem, Example.line])
        have c1 := ht [Lit.pos 1, Lit.pos 3] (by simp [problem, Example.line])
        obtain ⟨h1, h2⟩ := hd
        revert c0 c1 h1 h2
        simp [problem, Problem.costs, Example.line, WeaklyDominates, objValue, linear, LitTrue, Lit.pos]
        generalize t 0 = a0, t 1 = a1, t 2 = a2, t 3 = a3
        revert a0 a1 a2 a3
        decide
    rcases h.missing _ hn with hm | hm
    · simp at hm
    · obtain ⟨a, b, c, d, h1, h2, h3, -⟩ := hm _ List.mem_cons_self
      simp only [List.cons.injEq, and_true] at h1 h2
      omega

end Scuttle
