import Verif.Props.BosSame
import Verif.Props.Preprocess

/-!
# C75: the points that the program prints for BiOptSat
-/

set_option linter.unusedSectionVars false

namespace Scuttle

open Spec

variable {P C D : Type} [UbEnc P] [UbEnc C] [TotDb D] [MergeEnc P C D]
variable [LawfulUbEnc P] [LawfulUbEnc C] [LawfulTotDb D] [LawfulMergeEnc P C D] {env : Env} {s : Slv P C} {cli : Cli}
variable {inst : Instance} {p : Parsed} {enc : PbCon → Nat → List Clause × Nat}

theorem runAlg_leftPart (ha : cli.alg = .biOptSat) (hc : CliSetting cli inst env)
    (h0 : Started cli.alg inst defaultBlockingClause cli.opts s) (hlog : ∀ l, s.io.logger = some l → l = [])
    (hf0 : s.front = []) (fuel : Nat) :
    LeftPart inst (runAlg D cli.alg fuel cli.cb.parse.1 cli.limits.limits env s).2.front := by
  have hl : LimitsFine env cli.limits.limits := fun _ => cli_limits_pos _
  by_cases hg : GoesOn D fuel cli.cb.parse.1 env s
  · rw [(runAlg_goesOn cli.alg _ hg).1]
    rw [ha] at h0 ⊢
    cases hcb : cli.cb.parse.1 with
    | none =>
      rw [show afterBoost D fuel none env s = s from rfl]
      exact bioptsat_left_to_right hc.setting hl h0 fuel
    | some o =>
      rw [show afterBoost D fuel (some o) env s = (coreBoost D fuel o env s).2 from rfl]
      exact coreBoost_bioptsat_left_to_right hc.setting hl hc.cores hc.lits h0 (hc.flat ha (parse_some hcb)) fuel fuel
        (hg o hcb)
  · rw [driver_front_unchanged cli.alg fuel _ _ hlog hg, hf0]
    exact ⟨List.Pairwise.nil, fun _ _ => .inr (by simp)⟩

theorem solveInstance_leftPart (ha : cli.alg = .biOptSat) (hc : CliSetting cli inst env) {fuel : Nat} {r : Option Reindexer}
    {w : List Termination} {front : ParetoFront Assignment}
    (h : solveInstance P C D cli fuel env inst r = .printed w front) : LeftPart inst front := by
  have hpost : ∀ f0 : ParetoFront Assignment, (postSolve r f0).map NonDomPoint.costs = f0.map NonDomPoint.costs := by
    intro f0
    unfold postSolve
    cases r with
    | none => rfl
    | some r =>
      simp only
      rw [convertSolutions_map]
      simp [List.map_map, Function.comp_def]
  have hleft : ∀ {f f' : ParetoFront Assignment}, f.map NonDomPoint.costs = f'.map NonDomPoint.costs →
      LeftPart inst f' → LeftPart inst f := by
    intro f f' he hf
    refine ⟨?_, fun v hv => ?_⟩
    · rw [← List.pairwise_map (f := NonDomPoint.costs) (R := Before), he, List.pairwise_map]
      exact hf.sorted
    · rw [he]
      refine (hf.missing v hv).imp id fun h q hq => ?_
      have : q.costs ∈ f'.map NonDomPoint.costs := by rw [← he]; exact List.mem_map_of_mem hq
      obtain ⟨q', hq', e⟩ := List.mem_map.1 this
      rw [← e]
      exact h q' hq'
  unfold solveInstance at h
  split at h
  · simp at h
  · split at h
    · simp at h
    · rename_i s hs
      simp only at h
      have hrun := runAlg_leftPart (D := D) ha hc ⟨s, hs, .inr rfl⟩ (fun l hl => by
        simpa [Slv.attachLogger] using hl.symm) ?_ fuel
      · generalize runAlg D cli.alg fuel cli.cb.parse.1 cli.limits.limits env s.attachLogger = q at h hrun
        obtain ⟨q, s'⟩ := q
        cases q with
        | ok w' =>
          simp only [Exit.printed.injEq] at h
          obtain ⟨rfl, rfl⟩ := h
          exact hleft (hpost _) hrun
        | error e => cases e <;> simp at h
      · show s.front = []
        exact (fresh_ok hc.setting.wf (started_fresh ⟨s, hs, .inl rfl⟩)).front

/-- C75: with `bi-opt-sat`, whatever other options are given and however the run ends, the program prints the points from left
to right, and no point of the Pareto front of the parsed instance between or before them is missing. -/
theorem subMain_left_to_right (ha : cli.alg = .biOptSat) (hp : ParsedSetting cli p env) (g : GoodPbEncoding enc) {fuel : Nat}
    {w : List Termination} {front : ParetoFront Assignment} (h : subMain P C D enc cli fuel env p = .printed w front) :
    PrintedLeft p front := by
  unfold subMain at h
  split at h
  · simp at h
  · rename_i inst hinst
    split at h
    · rename_i hre
      split at h
      · simp at h
      · rename_i r inst' hr
        have hleft := solveInstance_leftPart ha (hp.reindexed g hinst hr) h
        obtain ⟨h1, h2, h3, h4⟩ := toClausal_wellFormed hp.ok g hinst
        have hu := (toClausal_weights hp.ok g hinst).2 (hp.unit hre)
        exact ⟨hleft.sorted, fun v hv => hleft.missing v
          ((reindexing_front h2 hu hr v).2 ((toClausal_front hp.ok g hinst v).2 hv))⟩
    · rename_i hre
      have hleft := solveInstance_leftPart ha (hp.clausal g hinst (by simpa using hre)) h
      exact ⟨hleft.sorted, fun v hv => hleft.missing v ((toClausal_front hp.ok g hinst v).2 hv)⟩

/-- C75: the same with preprocessing by MaxPre. -/
theorem subMainPre_left_to_right {pre : PrePro} (ha : cli.alg = .biOptSat) (hp : ParsedOK p) (g : GoodPbEncoding enc)
    (hk : PreKeeps pre (preClauses enc p) p.objs) (hs : ParsedSetting cli (preParsed enc pre p) env) {fuel : Nat}
    {w : List Termination} {front : ParetoFront Assignment}
    (h : subMainPre P C D enc pre cli fuel env p = .printed w front) : PrintedLeft p front := by
  rw [subMainPre_eq hk] at h
  cases he : subMain P C D (clauseEnc enc) cli fuel env (preParsed enc pre p) with
  | printed w' f0 =>
    rw [he] at h
    simp only [Exit.reconstruct, convertSolutions_map, Exit.printed.injEq] at h
    obtain ⟨rfl, rfl⟩ := h
    have hl := subMain_left_to_right ha hs (clauseEnc_good g) he
    have hfront := preParsed_front hp g hk hs.ok
    refine ⟨List.pairwise_map.2 hl.sorted, fun v hv => (hl.missing v ((hfront v).2 hv)).imp (fun h => ?_) fun h q hq => ?_⟩
    · simpa [List.map_map, Function.comp_def] using h
    · obtain ⟨q', hq', rfl⟩ := List.mem_map.1 hq
      exact h q' hq'
  | failed => rw [he] at h; simp [Exit.reconstruct] at h
  | panicked => rw [he] at h; simp [Exit.reconstruct] at h
  | fuel => rw [he] at h; simp [Exit.reconstruct] at h

/-- Two fronts that are sorted and without gaps. -/
theorem printed_prefix {front front' : ParetoFront Assignment} {w w' : List Termination} (hl : PrintedLeft p front)
    (hs : PrintedSound p front ∧ (w = [] → PrintedAll p front)) (hl' : PrintedLeft p front')
    (hs' : PrintedSound p front' ∧ (w' = [] → PrintedAll p front')) {cs cs' : List (List Int)}
    (hc : front.map NonDomPoint.costs = cs) (hc' : front'.map NonDomPoint.costs = cs') :
    (cs <+: cs' ∨ cs' <+: cs) ∧ (w = [] → cs' <+: cs) ∧ (w' = [] → cs <+: cs') ∧ (w = [] → w' = [] → cs = cs') := by
  subst hc hc'
  have gen : ∀ {f : ParetoFront Assignment}, PrintedLeft p f → PrintedSound p f →
      (f.map NonDomPoint.costs).Pairwise Before ∧ (∀ v ∈ f.map NonDomPoint.costs, ParsedNonDominated p v) ∧
      ∀ v, ParsedNonDominated p v → v ∈ f.map NonDomPoint.costs ∨ ∀ w ∈ f.map NonDomPoint.costs, Before w v := by
    intro f h hs
    refine ⟨List.pairwise_map.2 h.sorted, fun v hv => ?_, fun v hv => (h.missing v hv).imp id fun h w hw => ?_⟩
    · obtain ⟨q, hq, rfl⟩ := List.mem_map.1 hv
      exact hs.costs q hq
    · obtain ⟨q, hq, rfl⟩ := List.mem_map.1 hw
      exact h q hq
  have hall : ∀ {f f' : ParetoFront Assignment}, PrintedSound p f → PrintedAll p f' →
      f'.map NonDomPoint.costs <+: f.map NonDomPoint.costs → f.map NonDomPoint.costs <+: f'.map NonDomPoint.costs := by
    rintro f f' hs hf' ⟨x, h1⟩
    cases x with
    | nil =>
      rw [← h1, List.append_nil]
      exact List.prefix_rfl
    | cons v x =>
      exfalso
      have hv : v ∈ f.map NonDomPoint.costs := by rw [← h1]; simp
      obtain ⟨q, hq, hqv⟩ := List.mem_map.1 hv
      have hm := hf' v (hqv ▸ hs.costs q hq)
      have hn := hs.once
      rw [← h1] at hn
      exact (List.nodup_append.1 hn).2.2 v hm v List.mem_cons_self rfl
  obtain ⟨s1, s2⟩ := hs
  obtain ⟨s1', s2'⟩ := hs'
  obtain ⟨a1, a2, a3⟩ := gen hl s1
  obtain ⟨b1, b2, b3⟩ := gen hl' s1'
  have hcmp := prefix_of_before _ _ _ a1 b1 a2 b2 a3 b3
  have k1 : w = [] → front'.map NonDomPoint.costs <+: front.map NonDomPoint.costs := fun hw =>
    hcmp.elim (hall s1' (s2 hw)) id
  have k2 : w' = [] → front.map NonDomPoint.costs <+: front'.map NonDomPoint.costs := fun hw =>
    hcmp.elim id (hall s1 (s2' hw))
  exact ⟨hcmp, k1, k2, fun hw hw' => (k2 hw').eq_of_length_le (k1 hw).length_le⟩

variable {P' C' D' : Type} [UbEnc P'] [UbEnc C'] [TotDb D'] [MergeEnc P' C' D']
variable [LawfulUbEnc P'] [LawfulUbEnc C'] [LawfulTotDb D'] [LawfulMergeEnc P' C' D'] {env' : Env} {cli' : Cli}
variable {enc' : PbCon → Nat → List Clause × Nat}

/-- C75: the points that are printed only depend on the parsed instance: of two runs, with whatever SAT solvers, encodings and
other options, one prints an initial part of what the other prints, and both print the same if there is no warning. -/
theorem subMain_same_points (ha : cli.alg = .biOptSat) (hp : ParsedSetting cli p env) (g : GoodPbEncoding enc) {fuel : Nat}
    {w : List Termination} {front : ParetoFront Assignment} (h : subMain P C D enc cli fuel env p = .printed w front)
    (ha' : cli'.alg = .biOptSat) (hp' : ParsedSetting cli' p env') (g' : GoodPbEncoding enc') {fuel' : Nat}
    {w' : List Termination} {front' : ParetoFront Assignment}
    (h' : subMain P' C' D' enc' cli' fuel' env' p = .printed w' front') {cs cs' : List (List Int)}
    (hc : front.map NonDomPoint.costs = cs) (hc' : front'.map NonDomPoint.costs = cs') :
    (cs <+: cs' ∨ cs' <+: cs) ∧ (w = [] → cs' <+: cs) ∧ (w' = [] → cs <+: cs') ∧ (w = [] → w' = [] → cs = cs') := by
  exact printed_prefix (subMain_left_to_right ha hp g h) (subMain_printed hp g h) (subMain_left_to_right ha' hp' g' h')
    (subMain_printed hp' g' h') hc hc'

/-- C75: the same points are printed with preprocessing by MaxPre and without. -/
theorem subMainPre_same_points {pre : PrePro} (ha : cli.alg = .biOptSat) (hp : ParsedOK p) (g : GoodPbEncoding enc)
    (hk : PreKeeps pre (preClauses enc p) p.objs) (hs : ParsedSetting cli (preParsed enc pre p) env) {fuel : Nat}
    {w : List Termination} {front : ParetoFront Assignment} (h : subMainPre P C D enc pre cli fuel env p = .printed w front)
    (ha' : cli'.alg = .biOptSat) (hp' : ParsedSetting cli' p env') (g' : GoodPbEncoding enc') {fuel' : Nat}
    {w' : List Termination} {front' : ParetoFront Assignment}
    (h' : subMain P' C' D' enc' cli' fuel' env' p = .printed w' front') {cs cs' : List (List Int)}
    (hc : front.map NonDomPoint.costs = cs) (hc' : front'.map NonDomPoint.costs = cs') :
    (cs <+: cs' ∨ cs' <+: cs) ∧ (w = [] → cs' <+: cs) ∧ (w' = [] → cs <+: cs') ∧ (w = [] → w' = [] → cs = cs') := by
  exact printed_prefix (subMainPre_left_to_right ha hp g hk hs h) (subMainPre_printed hp g hk hs h)
    (subMain_left_to_right ha' hp' g' h') (subMain_printed hp' g' h') hc hc'

/-! ## Examples -/

/-- Costs of the points that are printed, and whether there is no warning. -/
def Example.printedCosts : Exit → Option (Bool × List (List Int))
  | .printed w front => some (w.isEmpty, front.map NonDomPoint.costs)
  | _ => none

/-- The hypotheses are met by runs with all solutions, without core boosting, and with a limit on the points. -/
theorem Example.bosSettings : (∀ cli ∈ [{ alg := .biOptSat, kernel := { enumeration := .solutions } },
    { alg := .biOptSat, cb := { coreBoosting := false } }, { alg := .biOptSat, limits := { ppLimit := 1 } }],
    ParsedSetting cli Example.parsed (refEnv false)) := by
  intro cli hcli
  have hre : cli.reindexing = false ∧ cli.kernel.enumeration ≠ .paretoMCS := by
    simp only [List.mem_cons, List.not_mem_nil, or_false] at hcli
    rcases hcli with rfl | rfl | rfl <;> simp
  exact ⟨Example.parsedOK, Example.weightsOK, refEnv_correct false, refEnv_noDupCores false, fun _ => hre.2,
    fun h => absurd (hre.1.symm.trans h) (by decide), fun _ _ => Example.parsed_notFlat⟩

example : Example.printedCosts (Example.main { alg := .biOptSat, kernel := { enumeration := .solutions } } false Example.parsed) =
      some (true, [[1, 6], [2, 3]]) ∧
    Example.printedCosts (Example.main { alg := .biOptSat, cb := { coreBoosting := false } } false Example.parsed) =
      some (true, [[1, 6], [2, 3]]) ∧
    Example.printedCosts (Example.main { alg := .biOptSat, limits := { ppLimit := 1 } } false Example.parsed) =
      some (false, [[1, 6]]) :=
  ⟨by decide +kernel, by decide +kernel, by decide +kernel⟩

/-- With preprocessing that removes a variable, and without; the hypotheses are met, see the examples of C58. -/
example : Example.printedCosts (Example.mainPre Example.fixPre { alg := .biOptSat } false Example.preInst) =
      some (true, [[0, 5], [1, 3]]) ∧
    Example.printedCosts (Example.main { alg := .biOptSat } false Example.preInst) = some (true, [[0, 5], [1, 3]]) :=
  ⟨by decide +kernel, by decide +kernel⟩

end Scuttle
