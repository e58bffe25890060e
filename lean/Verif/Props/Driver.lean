import Verif.Proof.RefPb
import Verif.Props.Cli
import Verif.Props.Front
import Verif.Props.Prepro
import Verif.Props.Reindex
import Verif.Props.Solve

/-!
# C32: the command line program from the parsed instance to the printed front
-/

set_option linter.unusedSectionVars false

namespace Scuttle

open Spec

variable {P C D : Type} [UbEnc P] [UbEnc C] [TotDb D] [MergeEnc P C D]
variable [LawfulUbEnc P] [LawfulUbEnc C] [LawfulTotDb D] [LawfulMergeEnc P C D] {env : Env} {s : Slv P C}

/-! ## Which calls are made -/

/-- Core boosting does not touch the front and is not counted as a call to `solve`. -/
theorem coreBoost_frame (hlog : ∀ l, s.io.logger = some l → l = []) (fuel : Nat) (o : CbOptions) :
    (coreBoost D fuel o env s).2.front = s.front ∧
    (coreBoost D fuel o env s).2.io.stats.nSolveCalls = s.io.stats.nSolveCalls := by
  have h := cbk_coreBoost (D := D) (env := env) fuel o (f0 := s.front) (n0 := s.io.stats.nSolveCalls)
    (lg := s.io.logger.isSome) (nl := False) (fs := []) 0 s ⟨rfl, rfl, fun l hl => by rw [hlog l hl]; exact ⟨.zero .nil, rfl, by simp, by simp⟩, rfl, False.elim⟩
  unfold wp at h
  split at h
  · rename_i heq
    rw [heq]
    exact ⟨h.front, h.calls⟩
  · rename_i heq
    rw [heq]
    obtain ⟨d, h⟩ := h
    exact ⟨h.front, h.calls⟩

/-- The driver goes on to `solve`: core boosting was not asked for or returned `Done(true)`. -/
def Spec.GoesOn (D : Type) [TotDb D] [MergeEnc P C D] (fuel : Nat) (cb : Option CbOptions) (env : Env) (s : Slv P C) :
    Prop := ∀ o, cb = some o → (coreBoost D fuel o env s).1 = .ok true

/-- The solver after core boosting, if it was asked for. -/
def Spec.afterBoost (D : Type) [TotDb D] [MergeEnc P C D] (fuel : Nat) (cb : Option CbOptions) (env : Env)
    (s : Slv P C) : Slv P C :=
  match cb with
  | none => s
  | some o => (coreBoost D fuel o env s).2

/-- If the driver goes on, its result is that of `solve`. -/
theorem runAlg_goesOn (alg : Alg) {fuel : Nat} {cb : Option CbOptions} (limits : Limits)
    (h : GoesOn D fuel cb env s) :
    (runAlg D alg fuel cb limits env s).2 = (alg.solve fuel limits env (afterBoost D fuel cb env s)).2 ∧
    (runAlg D alg fuel cb limits env s).1 =
      match (alg.solve fuel limits env (afterBoost D fuel cb env s)).1 with
      | .ok _ => .ok []
      | .error (.terminated t) => .ok [t]
      | .error e => .error e := by
  cases cb with
  | none =>
    simp only [runAlg, afterBoost]
    generalize alg.solve fuel limits env s = r
    obtain ⟨r, s2⟩ := r
    cases r with
    | ok u => exact ⟨rfl, rfl⟩
    | error e => cases e <;> exact ⟨rfl, rfl⟩
  | some o =>
    have h' := h o rfl
    simp only [runAlg, afterBoost]
    generalize coreBoost D fuel o env s = q at h'
    obtain ⟨q, s1⟩ := q
    simp only at h'
    subst h'
    simp only [handleTermination, Option.getD_some, if_true]
    generalize alg.solve fuel limits env s1 = r
    obtain ⟨r, s2⟩ := r
    cases r with
    | ok u => exact ⟨rfl, rfl⟩
    | error e => cases e <;> exact ⟨rfl, rfl⟩

/-- If it does not, its result is that of core boosting. -/
theorem runAlg_stops (alg : Alg) {fuel : Nat} {cb : Option CbOptions} (limits : Limits)
    (h : ¬ GoesOn D fuel cb env s) :
    (runAlg D alg fuel cb limits env s).2 = afterBoost D fuel cb env s ∧
    ∃ o, cb = some o ∧ (runAlg D alg fuel cb limits env s).1 =
      match (coreBoost D fuel o env s).1 with
      | .ok _ => .ok []
      | .error (.terminated t) => .ok [t]
      | .error e => .error e := by
  cases cb with
  | none => exact absurd (by intro o ho; simp at ho) h
  | some o =>
    have h' : (coreBoost D fuel o env s).1 ≠ .ok true := fun h1 => h (by
      intro o' ho'
      simp only [Option.some.injEq] at ho'
      subst ho'
      exact h1)
    simp only [runAlg, afterBoost, Option.some.injEq, exists_eq_left']
    generalize coreBoost D fuel o env s = r at h'
    obtain ⟨r, s2⟩ := r
    cases r with
    | ok b =>
      cases b with
      | true => exact absurd rfl h'
      | false => exact ⟨rfl, rfl⟩
    | error e => cases e <;> exact ⟨rfl, rfl⟩

/-- C32: `solve` is called exactly if core boosting was not asked for or returned `Done(true)`. -/
theorem driver_calls_solve (alg : Alg) (fuel : Nat) (cb : Option CbOptions) (limits : Limits)
    (hlog : ∀ l, s.io.logger = some l → l = []) (h0 : s.io.stats.nSolveCalls = 0) :
    (runAlg D alg fuel cb limits env s).2.io.stats.nSolveCalls ≠ 0 ↔ GoesOn D fuel cb env s := by
  constructor
  · intro h
    by_contra hg
    obtain ⟨h1, o, rfl, -⟩ := runAlg_stops alg limits hg
    rw [h1] at h
    exact h (((coreBoost_frame hlog fuel o).2).trans h0)
  · intro h
    rw [(runAlg_goesOn alg limits h).1]
    exact solve_called alg fuel limits env _

/-- C32: if `solve` is not called, the front stays as it was. -/
theorem driver_front_unchanged (alg : Alg) (fuel : Nat) (cb : Option CbOptions) (limits : Limits)
    (hlog : ∀ l, s.io.logger = some l → l = []) (h : ¬ GoesOn D fuel cb env s) :
    (runAlg D alg fuel cb limits env s).2.front = s.front := by
  obtain ⟨h1, o, rfl, -⟩ := runAlg_stops alg limits h
  rw [h1]
  exact (coreBoost_frame hlog fuel o).1

/-- C32: errors, and only errors, of the call that was made last are passed on; early termination is not an error. -/
theorem driver_errors (alg : Alg) (fuel : Nat) (cb : Option CbOptions) (limits : Limits) (e : Stop) :
    (runAlg D alg fuel cb limits env s).1 = .error e ↔ (∀ t, e ≠ .terminated t) ∧
      ((GoesOn D fuel cb env s ∧ (alg.solve fuel limits env (afterBoost D fuel cb env s)).1 = .error e) ∨
       ∃ o, cb = some o ∧ (coreBoost D fuel o env s).1 = .error e) := by
  by_cases hg : GoesOn D fuel cb env s
  · have hcb : ¬ ∃ o, cb = some o ∧ (coreBoost D fuel o env s).1 = .error e := by
      rintro ⟨o, ho, he⟩
      rw [hg o ho] at he
      simp at he
    rw [(runAlg_goesOn alg limits hg).2]
    generalize (alg.solve fuel limits env (afterBoost D fuel cb env s)).1 = r
    cases r with
    | ok u => simp [hcb]
    | error e' => cases e' <;> cases e <;> simp [hcb, hg]
  · obtain ⟨-, o, rfl, h2⟩ := runAlg_stops alg limits hg
    rw [h2]
    simp only [hg, false_and, false_or, Option.some.injEq, exists_eq_left']
    generalize (coreBoost D fuel o env s).1 = r
    cases r with
    | ok u => simp
    | error e' => cases e' <;> cases e <;> simp

/-- C32: a warning is printed exactly for an early termination. -/
theorem driver_warnings (alg : Alg) (fuel : Nat) (cb : Option CbOptions) (limits : Limits) (w : List Termination)
    (h : (runAlg D alg fuel cb limits env s).1 = .ok w) :
    (w = [] ∧ (GoesOn D fuel cb env s ∧ (alg.solve fuel limits env (afterBoost D fuel cb env s)).1 = .ok () ∨
      ∃ o, cb = some o ∧ (coreBoost D fuel o env s).1 = .ok false)) ∨
    ∃ t, w = [t] ∧ (GoesOn D fuel cb env s ∧
      (alg.solve fuel limits env (afterBoost D fuel cb env s)).1 = .error (.terminated t) ∨
      ∃ o, cb = some o ∧ (coreBoost D fuel o env s).1 = .error (.terminated t)) := by
  by_cases hg : GoesOn D fuel cb env s
  · rw [(runAlg_goesOn alg limits hg).2] at h
    generalize (alg.solve fuel limits env (afterBoost D fuel cb env s)).1 = r at h ⊢
    cases r with
    | ok u =>
      simp only [Except.ok.injEq] at h
      exact .inl ⟨h.symm, .inl ⟨hg, rfl⟩⟩
    | error e' =>
      cases e' with
      | terminated t =>
        simp only [Except.ok.injEq] at h
        exact .inr ⟨t, h.symm, .inl ⟨hg, rfl⟩⟩
      | _ => simp at h
  · obtain ⟨-, o, rfl, h2⟩ := runAlg_stops alg limits hg
    rw [h2] at h
    generalize hr : (coreBoost D fuel o env s).1 = r at h
    cases r with
    | ok u =>
      cases u with
      | true => exact absurd (by intro o' ho'; simp only [Option.some.injEq] at ho'; subst ho'; exact hr) hg
      | false =>
        simp only [Except.ok.injEq] at h
        exact .inl ⟨h.symm, .inr ⟨o, rfl, hr⟩⟩
    | error e' =>
      cases e' with
      | terminated t =>
        simp only [Except.ok.injEq] at h
        exact .inr ⟨t, h.symm, .inr ⟨o, rfl, hr⟩⟩
      | _ => simp at h

/-! ## What is printed for an instance -/

variable {inst : Instance} {cli : Cli}

/-- What the program assumes of an instance: a setting for the solvers, no objective with a literal twice, and for
BiOptSat with core boosting none that is flat. -/
structure Spec.CliSetting (cli : Cli) (inst : Instance) (env : Env) : Prop where
  setting : Setting inst defaultBlockingClause cli.opts env
  cores : NoDupCores env
  lits : NoDupLits inst
  flat : cli.alg = .biOptSat → cli.cb.coreBoosting = true → NotFlat inst

theorem parse_some {a : CbArgs} {o : CbOptions} (h : a.parse.1 = some o) : a.coreBoosting = true := by
  cases a with
  | mk b r t => cases b <;> simp_all [CbArgs.parse]

/-- The front before its solutions are converted, for a run on a fresh solver. -/
theorem runAlg_front (hc : CliSetting cli inst env) (h0 : Started cli.alg inst defaultBlockingClause cli.opts s)
    (hlog : ∀ l, s.io.logger = some l → l = []) (hf0 : s.front = []) (fuel : Nat) :
    let r := runAlg D cli.alg fuel cli.cb.parse.1 cli.limits.limits env s
    SoundFront inst r.2.front ∧ SolutionsOK inst r.2.front ∧ (r.1 = .ok [] → ExactFront inst r.2.front) := by
  have hl : LimitsFine env cli.limits.limits := fun _ => cli_limits_pos _
  simp only
  by_cases hg : GoesOn D fuel cli.cb.parse.1 env s
  · rw [(runAlg_goesOn cli.alg _ hg).1, (runAlg_goesOn cli.alg _ hg).2]
    have hok : ∀ {r : Except Stop Unit}, (match r with
        | .ok _ => .ok []
        | .error (.terminated t) => .ok [t]
        | .error e => .error e : Except Stop (List Termination)) = .ok [] → r = .ok () := by
      intro r hr
      cases r with
      | ok u => rfl
      | error e => cases e <;> simp at hr
    cases hcb : cli.cb.parse.1 with
    | none =>
      rw [show afterBoost D fuel none env s = s from rfl]
      refine ⟨front_sound cli.alg hc.setting hl h0 fuel, solutions_attain cli.alg hc.setting hl h0 fuel, fun hr => ?_⟩
      have h := run_ok cli.alg hc.setting hl h0 fuel
      rw [hok hr] at h
      exact h.exactFront hc.setting.unit
    | some o =>
      have hb := hg o hcb
      rw [show afterBoost D fuel (some o) env s = (coreBoost D fuel o env s).2 from rfl]
      obtain ⟨os, h1, h2, h3, h4⟩ := boosted_run cli.alg hc.setting hl hc.cores hc.lits h0
        (fun ha => hc.flat ha (parse_some hcb)) hb fuel
      obtain ⟨cs, h5, -⟩ := h4.front
      refine ⟨?_, ?_, fun hr => ?_⟩
      · have := h5.soundFront h3.unit
        exact ⟨by have := this.sound; rw [h1.problem] at this; exact this, this.once⟩
      · have := h5.solutionsOK
        exact ⟨this.some, by have := this.attain; rw [h1.problem] at this; exact this⟩
      · rw [hok hr] at h4
        exact (h4.exactFront h3.unit).of_lb h1
  · obtain ⟨-, o, ho, h2⟩ := runAlg_stops cli.alg cli.limits.limits hg
    rw [driver_front_unchanged cli.alg fuel _ _ hlog hg, hf0]
    refine ⟨⟨by simp, by simp⟩, ⟨by simp, by simp⟩, fun hr => ⟨fun v => ⟨by simp, ?_⟩, by simp⟩⟩
    rintro ⟨t, ht, -⟩
    rw [h2] at hr
    have hfalse : (coreBoost D fuel o env s).1 = .ok false := by
      cases hb : (coreBoost D fuel o env s).1 with
      | ok b =>
        cases b with
        | false => rfl
        | true =>
          exact absurd (by intro o' ho'; rw [ho, Option.some.injEq] at ho'; subst ho'; exact hb) hg
      | error e => rw [hb] at hr; cases e <;> simp at hr
    exact absurd ⟨t, ht.1⟩ (coreBoost_false hc.setting hc.cores hc.lits h0 fuel hfalse)

/-- C32: what is printed for an instance. -/
theorem solveInstance_printed (hc : CliSetting cli inst env) {fuel : Nat} {r : Option Reindexer} {w : List Termination}
    {front : ParetoFront Assignment} (h : solveInstance P C D cli fuel env inst r = .printed w front) :
    ∃ f0, front = postSolve r f0 ∧ SoundFront inst f0 ∧ SolutionsOK inst f0 ∧ (w = [] → ExactFront inst f0) := by
  unfold solveInstance at h
  split at h
  · simp at h
  · split at h
    · simp at h
    · rename_i s hs
      simp only at h
      have hrun := runAlg_front (D := D) hc ⟨s, hs, .inr rfl⟩ (fun l hl => by
        simpa [Slv.attachLogger] using hl.symm) ?_ fuel
      · simp only at hrun
        generalize runAlg D cli.alg fuel cli.cb.parse.1 cli.limits.limits env s.attachLogger = q at h hrun
        obtain ⟨q, s'⟩ := q
        cases q with
        | ok w' =>
          simp only [Exit.printed.injEq] at h
          obtain ⟨rfl, rfl⟩ := h
          exact ⟨s'.front, rfl, hrun.1, hrun.2.1, fun hw => hrun.2.2 (by rw [hw])⟩
        | error e => cases e <;> simp at h
      · show s.front = []
        exact (fresh_ok hc.setting.wf (started_fresh ⟨s, hs, .inl rfl⟩)).front

/-! ## From the parsed instance to the printed front -/

section Parsed

variable {p : Parsed} {enc : PbCon → Nat → List Clause × Nat} {debug : Bool}

/-- Costs and feasibility only depend on the original variables. -/
theorem parsed_agree (hp : ParsedOK p) {u t : Asg} (h : ∀ v, v ≤ p.vm.maxOrigVar → u v = t v) :
    (ParsedFeasible p u ↔ ParsedFeasible p t) ∧ parsedCosts p u = parsedCosts p t := by
  have hlt : ∀ v, v < p.vm.maxOrigVar + 1 → u v = t v := fun v hv => h v (by omega)
  have hgt : ∀ v, v < p.vm.maxOrigVar + 1 → t v = u v := fun v hv => (hlt v hv).symm
  constructor
  · refine forall₂_congr fun c hc => pbHolds_agree (n := p.vm.maxOrigVar + 1) hlt ?_
    intro q hq
    have := hp.cons c hc q hq
    omega
  · unfold parsedCosts
    refine List.map_congr_left fun o ho => ?_
    have hsoft := hp.softs o ho
    congr 2
    generalize o.softs = softs at hsoft
    induction softs with
    | nil => rfl
    | cons q softs ih =>
      obtain ⟨c, w⟩ := q
      simp only [softCost]
      rw [ih fun q hq => hsoft q (by simp [hq])]
      have hv : ∀ l ∈ c, l.var < p.vm.maxOrigVar + 1 := fun l hl => by
        have := hsoft (c, w) (by simp) l hl
        omega
      have : (∃ l ∈ c, LitTrue u l) ↔ ∃ l ∈ c, LitTrue t l :=
        ⟨satisfied_agree hgt hv, satisfied_agree hlt hv⟩
      simp only [this]

/-- A feasible assignment of the converted instance with non-dominated costs has the same costs before. -/
theorem nonDominated_costs (hp : ParsedOK p) (g : GoodPbEncoding enc) (h : toClausal debug enc p = some inst) {t : Asg}
    (ht : (problem inst).Feasible t) (hn : (problem inst).NonDominated ((problem inst).costs t)) :
    ParsedFeasible p t ∧ parsedCosts p t = (problem inst).costs t := by
  obtain ⟨hpt, hle⟩ := toClausal_sound hp g h ht
  obtain ⟨u, -, hfu, hcu⟩ := toClausal_complete hp g h hpt
  refine ⟨hpt, ?_⟩
  obtain ⟨s', hs', hcs⟩ := hn
  by_contra hne
  apply hs'.2 u hfu
  rw [hcu, hcs]
  exact ⟨hle, hne⟩

/-- Weights of the converted instance. -/
theorem toClausal_weights (hp : ParsedOK p) (g : GoodPbEncoding enc) (h : toClausal debug enc p = some inst) :
    ((∀ o ∈ p.objs, ∀ q ∈ o.softs, 0 < q.2) → NoZeroWeights inst) ∧ (ParsedUnitOne p → UnitOne inst) := by
  obtain ⟨st, n, hi, hf, -⟩ := toClausal_data hp g h
  have key : ∀ o' ∈ inst.objs, ∃ o ∈ p.objs, ∃ ts idx, o' = Objective.new ts o.offset idx ∧
      (ts.map Prod.fst).Nodup ∧ List.Forall₂ (fun q t => t.2 = q.2 ∧ LitFor st.blits q.1 t.1) o.softs ts := by
    intro o' ho'
    obtain ⟨o, ho, ts, idx, he, hts⟩ := forall₂_right hf ho'
    exact ⟨o, ho, ts, idx, he, litFor_nodup hi (hp.softs o ho) (hp.nodup o ho) hts, hts⟩
  constructor
  · intro hpos off lits i lb ho' t ht
    obtain ⟨o, ho, ts, idx, he, hd, hts⟩ := key _ ho'
    obtain rfl := (objective_new_weights hd o.offset idx).1 _ _ _ _ he.symm
    obtain ⟨q, hq, hw, -⟩ := forall₂_right hts ht
    rw [hw]
    exact hpos o ho q hq
  · intro hu off w lits i lb ho'
    obtain ⟨o, ho, ts, idx, he, hd, hts⟩ := key _ ho'
    obtain ⟨hne, hall⟩ := (objective_new_weights hd o.offset idx).2 _ _ _ _ _ he.symm
    refine hu o ho w ?_ ?_
    · rintro h0
      rw [h0] at hts
      cases hts
      exact hne rfl
    · intro q hq
      obtain ⟨t, ht, hw, -⟩ := forall₂_left hts hq
      rw [← hw]
      exact hall t ht

/-- The converted instance has no flat objective if the parsed one has none. -/
theorem toClausal_notFlat (hp : ParsedOK p) (g : GoodPbEncoding enc) (h : toClausal debug enc p = some inst)
    (hflat : ParsedNotFlat p) : NotFlat inst := by
  obtain ⟨st, n, hi, hf, -⟩ := toClausal_data hp g h
  intro o' ho' hall s hs
  obtain ⟨i, hi', rfl⟩ := List.getElem_of_mem ho'
  have hlen : p.objs.length = inst.objs.length := hf.length_eq
  have hoff : inst.objs[i].offset = p.objs[i].offset := by
    obtain ⟨ts, idx, he, hts⟩ := hf.get (i := i) (by omega) hi'
    simp only [List.get_eq_getElem] at he hts
    have := (objective_new_spec ts p.objs[i].offset idx
      (litFor_nodup hi (hp.softs _ (List.getElem_mem _)) (hp.nodup _ (List.getElem_mem _)) hts)).2.2.1
    rw [he]
    exact this
  have hext : ∀ u, ParsedFeasible p u → ∃ t, (problem inst).Feasible t ∧
      objValue inst.objs[i] t = inst.objs[i].offset + softCost u p.objs[i].softs := by
    intro u hu
    obtain ⟨t, -, ht, hc⟩ := toClausal_complete hp g h hu
    refine ⟨t, ht, ?_⟩
    have := congrArg (fun l => l[i]?) hc
    simp only [Problem.costs, problem, parsedCosts, List.map_map, List.getElem?_map,
      List.getElem?_eq_getElem hi', List.getElem?_eq_getElem (show i < p.objs.length by omega), Option.map_some,
      Option.some.injEq, Function.comp_apply] at this
    rw [this, hoff]
  have hz := hflat p.objs[i] (List.getElem_mem _) (fun u v hu hv => by
    obtain ⟨u', h1, h2⟩ := hext u hu
    obtain ⟨v', h3, h4⟩ := hext v hv
    have := hall u' v' h1 h3
    rw [h2, h4] at this
    omega)
  have hps := (toClausal_sound hp g h hs).1
  obtain ⟨s', h1, h2⟩ := hext s hps
  rw [hall s s' hs h1, h2, hz s hps]
  simp

/-- Nor has the reindexed one. -/
theorem reindexing_notFlat {inst' : Instance} {r : Reindexer} (hn : NoDupLits inst) (hu : PosUnit inst)
    (h : reindexing inst = some (r, inst')) (hflat : NotFlat inst) : NotFlat inst' := by
  have hd := reindexing_data h
  intro o' ho' hall s' hs'
  obtain ⟨o, ho, hoo⟩ := forall₂_right hd.objs ho'
  have hpos : 0 < o.unitWeight := by
    cases o with
    | weighted => simp [Objective.unitWeight]
    | unweighted off w lits i lb => exact hu off w lits i lb ho
    | constant => simp [Objective.unitWeight]
  have hval : ∀ {s s' : Asg}, Corr r s s' → objValue o' s' = o.offset + internalCost o s := fun hc =>
    (hc.obj hd.inv (hn o ho) hoo).1
  have hfl := hflat o ho (fun s t hs ht => by
    have hcs := pushAsg_corr hd.inv s
    have hct := pushAsg_corr hd.inv t
    have := hall _ _ ((hcs.feasible hd).2 hs) ((hct.feasible hd).2 ht)
    rw [hval hcs, hval hct] at this
    rw [objValue_internal, objValue_internal]
    have : internalCost o s = internalCost o t := by omega
    rw [this])
  have hc := pullAsg_corr r s' s'
  have hf := hfl _ ((hc.feasible hd).1 hs')
  rw [objValue_internal] at hf
  have h0 : internalCost o (pullAsg r s' s') = 0 := by
    by_contra hne
    have h1 : 0 < o.unitWeight * internalCost o (pullAsg r s' s') := Nat.mul_pos hpos (Nat.pos_of_ne_zero hne)
    have h2 : (0 : Int) < ((o.unitWeight * internalCost o (pullAsg r s' s') : Nat) : Int) := by exact_mod_cast h1
    push_cast at h2
    omega
  rw [hval hc, h0, (hc.obj hd.inv (hn o ho) hoo).2.1]
  simp

/-- What the program assumes of a parsed instance. -/
structure Spec.ParsedSetting (cli : Cli) (p : Parsed) (env : Env) : Prop where
  ok : ParsedOK p
  weights : WeightsOK p
  oracle : CorrectOracle env
  cores : NoDupCores env
  enum : cli.reindexing = false → cli.kernel.enumeration ≠ .paretoMCS
  unit : cli.reindexing = true → ParsedUnitOne p
  flat : cli.alg = .biOptSat → cli.cb.coreBoosting = true → ParsedNotFlat p

theorem Spec.ParsedSetting.clausal (hp : ParsedSetting cli p env) (g : GoodPbEncoding enc)
    (h : toClausal debug enc p = some inst) (hr : cli.reindexing = false) : CliSetting cli inst env where
  setting := toClausal_setting hp.ok hp.weights g h hp.oracle (by
    intro l hl
    have := hp.enum hr
    simp only [Cli.opts, KernelArgs.kernelOpts] at hl
    split at hl <;> simp_all)
  cores := hp.cores
  lits := (toClausal_wellFormed hp.ok g h).2.1
  flat ha hb := toClausal_notFlat hp.ok g h (hp.flat ha hb)

theorem Spec.ParsedSetting.reindexed {inst' : Instance} {r : Reindexer} (hp : ParsedSetting cli p env)
    (g : GoodPbEncoding enc) (h : toClausal debug enc p = some inst) (hr : reindexing inst = some (r, inst')) :
    CliSetting cli inst' env := by
  obtain ⟨h1, h2, -, h4⟩ := toClausal_wellFormed hp.ok g h
  have hpos := h4 hp.weights.pos
  exact ⟨reindexing_setting h2 hpos ((toClausal_weights hp.ok g h).1 hp.weights.pos)
    (toClausal_fits hp.ok g h hp.weights.fits) hr hp.oracle _, hp.cores, (reindexing_wellFormed h2 hr).2.1,
    fun ha hb => reindexing_notFlat h2 hpos hr (toClausal_notFlat hp.ok g h (hp.flat ha hb))⟩

/-- C32: whatever options are given and however the run ends, if a front is printed, its points are non-dominated in the
parsed instance, listed once, and its solutions satisfy the constraints and have these costs; if no warning about early
termination is printed, the front is complete. -/
theorem subMain_printed (hp : ParsedSetting cli p env) (g : GoodPbEncoding enc) {fuel : Nat} {w : List Termination}
    {front : ParetoFront Assignment} (h : subMain P C D enc cli fuel env p = .printed w front) :
    PrintedSound p front ∧ (w = [] → PrintedAll p front) := by
  unfold subMain at h
  split at h
  · simp at h
  · rename_i inst hinst
    split at h
    · rename_i hre
      split at h
      · simp at h
      · rename_i r inst' hr
        obtain ⟨f0, rfl, hsound, hsols, hexact⟩ := solveInstance_printed (hp.reindexed g hinst hr) h
        obtain ⟨h1, h2, h3, h4⟩ := toClausal_wellFormed hp.ok g hinst
        have hpos := h4 hp.weights.pos
        have hu := (toClausal_weights hp.ok g hinst).2 (hp.unit hre)
        have hfront : ∀ v, (problem inst').NonDominated v ↔ ParsedNonDominated p v := fun v =>
          (reindexing_front h2 hu hr v).trans (toClausal_front hp.ok g hinst v)
        have hint : ∀ s, (inst.objs.map fun o => o.offset + (internalCost o s : Int)) = (problem inst).costs s := by
          intro s
          unfold Problem.costs problem
          simp only [List.map_map]
          apply List.map_congr_left
          intro o ho
          simp only [Function.comp_apply, objValue_internal]
          cases o with
          | weighted => simp [Objective.unitWeight]
          | unweighted off w lits i lb => simp [Objective.unitWeight, hu off w lits i lb ho]
          | constant => simp [Objective.unitWeight]
        unfold postSolve
        simp only
        rw [convertSolutions_map]
        refine ⟨⟨?_, ?_, ?_, ?_⟩, fun hw v hv => ?_⟩
        · intro pt hpt
          obtain ⟨q, hq, rfl⟩ := List.mem_map.1 hpt
          exact (hfront _).1 (hsound.sound q hq)
        · have := hsound.once
          simpa [List.map_map, Function.comp_def] using this
        · intro pt hpt
          obtain ⟨q, hq, rfl⟩ := List.mem_map.1 hpt
          simpa using hsols.some q hq
        · intro pt hpt x hx u hxu
          obtain ⟨q, hq, rfl⟩ := List.mem_map.1 hpt
          obtain ⟨y, hy, rfl⟩ := List.mem_map.1 hx
          obtain ⟨s', hs', hc, hsh⟩ := hsols.attain q hq y hy
          have hnd := hsound.sound q hq
          have hopt : (problem inst').ParetoOptimal s' := by
            obtain ⟨s2, hs2, hcs⟩ := hnd
            exact ⟨hs', fun a ha hd => hs2.2 a ha (by rw [hcs, ← hc]; exact hd)⟩
          obtain ⟨t, ht1, ht2, ht3⟩ := reindexing_pareto h2 hpos hr hopt hsh hxu
          rw [hint, hc] at ht3
          obtain ⟨k1, k2⟩ := nonDominated_costs hp.ok g hinst ht2.1 ⟨t, ht2, rfl⟩
          obtain ⟨e1, e2⟩ := parsed_agree hp.ok (u := u) (t := t) fun v hv => ht1 v (by rw [h3]; exact hv)
          exact ⟨e1.2 k1, by rw [e2, k2, ← ht3]⟩
        · have := ((hexact hw).exact v).2 ((hfront v).2 hv)
          simpa [List.map_map, Function.comp_def] using this
    · rename_i hre
      obtain ⟨f0, rfl, hsound, hsols, hexact⟩ := solveInstance_printed
        (hp.clausal g hinst (by simpa using hre)) h
      have h3 := (toClausal_wellFormed hp.ok g hinst).2.2.1
      have hfront := toClausal_front hp.ok g hinst
      refine ⟨⟨fun pt hpt => (hfront _).1 (hsound.sound pt hpt), hsound.once, hsols.some, ?_⟩, fun hw v hv =>
        ((hexact hw).exact v).2 ((hfront v).2 hv)⟩
      intro pt hpt x hx u hxu
      obtain ⟨t, ht, hc, hsh⟩ := hsols.attain pt hpt x hx
      obtain ⟨k1, k2⟩ := nonDominated_costs hp.ok g hinst ht (by rw [hc]; exact hsound.sound pt hpt)
      obtain ⟨e1, e2⟩ := parsed_agree hp.ok (u := u) (t := t) fun v hv => by
        have := hsh.2 v (by rw [h3]; omega)
        exact hxu v _ this
      exact ⟨e1.2 k1, by rw [e2, k2, hc]⟩

/-- The run itself ends without panic, error or running out of fuel. -/
theorem runAlg_ends (inst : Instance) : ∃ N, ∀ (cli : Cli) (env : Env) (s : Slv P C) (fuel : Nat),
    CliSetting cli inst env → Started cli.alg inst defaultBlockingClause cli.opts s →
    (cli.cb.coreBoosting = true → ∃ t, (problem inst).Feasible t) → (∀ t, env.logOk t = true) → N < fuel →
    ∃ w, (runAlg D cli.alg fuel cli.cb.parse.1 cli.limits.limits env s).1 = .ok w := by
  obtain ⟨N, hN⟩ := coreBoost_terminates (P := P) (C := C) (D := D) inst
  refine ⟨max N (iterBound inst), fun cli env s fuel hc h0 hfe hlog hf => ?_⟩
  have hl : LimitsFine env cli.limits.limits := fun _ => cli_limits_pos _
  cases hr : (runAlg D cli.alg fuel cli.cb.parse.1 cli.limits.limits env s).1 with
  | ok w => exact ⟨w, rfl⟩
  | error e =>
    obtain ⟨hterm, h⟩ := (driver_errors cli.alg fuel _ _ e).1 hr
    exfalso
    have hstop : e = .panic ∨ e = .error ∨ e = .fuel := by
      cases e with
      | terminated t => exact absurd rfl (hterm t)
      | _ => simp
    rcases h with ⟨hg, h⟩ | ⟨o, ho, h⟩
    · have hrun : ∃ pb B, B ≤ iterBound inst ∧ RunOK (P := P) (C := C) pb env B fuel
          (cli.alg.solve fuel cli.limits.limits env (afterBoost D fuel cli.cb.parse.1 env s)).1
          (cli.alg.solve fuel cli.limits.limits env (afterBoost D fuel cli.cb.parse.1 env s)).2 := by
        cases hcb : cli.cb.parse.1 with
        | none => exact ⟨_, _, Nat.le_refl _, run_ok cli.alg hc.setting hl h0 fuel⟩
        | some o =>
          obtain ⟨os, h1, h2, h3, h4⟩ := boosted_run cli.alg hc.setting hl hc.cores hc.lits h0
            (fun ha => hc.flat ha (parse_some hcb)) (hg o hcb) fuel
          exact ⟨_, _, by rw [h2], h4⟩
      obtain ⟨pb, B, hB, hrun⟩ := hrun
      rw [h] at hrun
      rcases hstop with rfl | rfl | rfl
      · exact hrun.panic rfl
      · obtain ⟨t, ht⟩ := hrun.error rfl
        rw [hlog t] at ht
        simp at ht
      · have := hrun.fuel rfl
        omega
    · obtain ⟨k1, k2, k3, -⟩ := hN cli.alg defaultBlockingClause cli.opts env s o fuel hc.setting hc.cores hc.lits h0
        (hfe (parse_some ho))
      rcases hstop with rfl | rfl | rfl
      · exact k1 h
      · exact k2 hlog (fun ha => (cli_stores_cnf cli).2 ⟨o, ho, ha⟩) h
      · exact k3 (by omega) h

/-- A front is printed for the instance. -/
theorem solveInstance_ends (inst : Instance) : ∃ N, ∀ (cli : Cli) (env : Env) (r : Option Reindexer) (fuel : Nat),
    CliSetting cli inst env → (cli.alg = .biOptSat → inst.objs.length = 2) →
    (cli.cb.coreBoosting = true → ∃ t, (problem inst).Feasible t) → (∀ t, env.logOk t = true) → N < fuel →
    ∃ w front, solveInstance P C D cli fuel env inst r = .printed w front := by
  obtain ⟨N, hN⟩ := runAlg_ends (P := P) (C := C) (D := D) inst
  refine ⟨N, fun cli env r fuel hc h2 hfe hlog hf => ?_⟩
  unfold solveInstance
  rw [if_neg (by rintro ⟨h, h'⟩; exact h' (h2 h))]
  obtain ⟨s', s, hs, -⟩ := new_no_panic (P := P) (C := C) (bcg := defaultBlockingClause) (opts := cli.opts) cli.alg
    hc.setting.wf h2
  rw [hs]
  simp only
  obtain ⟨w, hw⟩ := hN cli env s.attachLogger fuel hc ⟨s, hs, .inr rfl⟩ hfe hlog hf
  rw [hw]
  exact ⟨_, _, rfl⟩

/-- C32: a front is printed, with at most a warning about early termination, if the instance is feasible or core boosting
is off, BiOptSat gets two objectives, no objective is empty if reindexing is on, no soft clause is empty in a debug build,
and writing messages succeeds. -/
theorem subMain_ends (g : GoodPbEncoding enc) (p : Parsed) (debug : Bool) : ∃ N, ∀ (cli : Cli) (env : Env) (fuel : Nat),
    env.debug = debug → ParsedSetting cli p env → (cli.alg = .biOptSat → p.objs.length = 2) →
    (cli.cb.coreBoosting = true → ∃ t, ParsedFeasible p t) → (cli.reindexing = true → ∃ o ∈ p.objs, o.softs ≠ []) →
    (debug = true → ∀ o ∈ p.objs, ∀ q ∈ o.softs, q.1 ≠ []) → (∀ t, env.logOk t = true) → N < fuel →
    ∃ w front, subMain P C D enc cli fuel env p = .printed w front := by
  by_cases hex : ∃ inst, toClausal debug enc p = some inst
  · obtain ⟨inst, hinst⟩ := hex
    obtain ⟨N1, hN1⟩ := solveInstance_ends (P := P) (C := C) (D := D) inst
    obtain ⟨N2, hN2⟩ := solveInstance_ends (P := P) (C := C) (D := D) ((reindexing inst).map Prod.snd |>.getD inst)
    refine ⟨max N1 N2, fun cli env fuel hdebug hp h2 hfe hre hsoft hlog hf => ?_⟩
    subst hdebug
    have hobjs : inst.objs.length = p.objs.length := by
      obtain ⟨st, n, -, hfo, -⟩ := toClausal_data hp.ok g hinst
      exact hfo.length_eq.symm
    have hfe' : cli.cb.coreBoosting = true → ∃ t, (problem inst).Feasible t := fun hb => by
      obtain ⟨t, ht⟩ := hfe hb
      obtain ⟨u, -, hu, -⟩ := toClausal_complete hp.ok g hinst ht
      exact ⟨u, hu⟩
    unfold subMain
    rw [hinst]
    simp only
    split
    · rename_i hr
      have hno : ¬ NoLits inst := by
        obtain ⟨o, ho, hs⟩ := hre hr
        obtain ⟨st, n, hi, hfo, -⟩ := toClausal_data hp.ok g hinst
        obtain ⟨o', ho', ts, idx, rfl, hts⟩ := forall₂_left hfo ho
        obtain ⟨q, hq⟩ := List.exists_mem_of_ne_nil _ hs
        obtain ⟨t, ht, -⟩ := forall₂_left hts hq
        have hl := (objective_new_spec ts o.offset idx
          (litFor_nodup hi (hp.ok.softs o ho) (hp.ok.nodup o ho) hts)).2.1
        intro hno
        have := hno.2 _ ho'
        rw [hl] at this
        rw [List.map_eq_nil_iff] at this
        rw [this] at ht
        simp at ht
      cases hri : reindexing inst with
      | none => exact absurd ((reindexing_none_iff inst).1 hri) hno
      | some q =>
        obtain ⟨r, inst'⟩ := q
        rw [hri] at hN2
        simp only [Option.map_some, Option.getD_some] at hN2
        simp only
        have hlits := (toClausal_wellFormed hp.ok g hinst).2.1
        have hlen : inst'.objs.length = inst.objs.length := by
          have := congrArg List.length (reindexing_wellFormed hlits hri).2.2.2.2.1
          simpa using this
        refine hN2 cli env (some r) fuel (hp.reindexed g hinst hri) (fun ha => by rw [hlen, hobjs]; exact h2 ha) ?_ hlog
          (by omega)
        intro hb
        obtain ⟨t, ht⟩ := hfe' hb
        obtain ⟨t', -, ht', -⟩ := reindexing_complete hlits hri ht
        exact ⟨t', ht'⟩
    · rename_i hr
      exact hN1 cli env none fuel (hp.clausal g hinst (by simpa using hr)) (fun ha => by rw [hobjs]; exact h2 ha) hfe' hlog
        (by omega)
  · refine ⟨0, fun cli env fuel hdebug hp h2 hfe hre hsoft hlog hf => ?_⟩
    exact absurd (toClausal_total hp.ok g hsoft) hex

end Parsed

/-! ## Examples and findings -/

/-- The program with the reference encodings. -/
def Example.main (cli : Cli) (debug : Bool) (p : Parsed) : Exit :=
  subMain (RefTot.RefTree 1) (RefTot.RefTree 0) RefTot refPbEnc cli 50 (refEnv debug) p

theorem Example.parsed_notFlat : ParsedNotFlat Example.parsed := by
  have f1 : ParsedFeasible Example.parsed (fun v => v == 0 || v == 1) := by unfold ParsedFeasible; decide
  have f2 : ParsedFeasible Example.parsed (fun v => v == 1 || v == 2) := by unfold ParsedFeasible; decide
  have f3 : ParsedFeasible Example.parsed (fun v => v == 0 || v == 2) := by unfold ParsedFeasible; decide
  intro o ho hall
  have h1 := hall _ _ f1 f2
  have h2 := hall _ _ f3 f2
  simp only [Example.parsed, List.mem_cons, List.not_mem_nil, or_false] at ho
  rcases ho with rfl | rfl
  · exact absurd h1 (by decide)
  · exact absurd h2 (by decide)

/-- The hypotheses of C32 are met for each algorithm, with core boosting and all solutions. -/
theorem Example.parsedSetting (alg : Alg) : ParsedSetting { alg := alg, kernel := { enumeration := .solutions } }
    Example.parsed (refEnv false) where
  ok := Example.parsedOK
  weights := Example.weightsOK
  oracle := refEnv_correct false
  cores := refEnv_noDupCores false
  enum := by simp
  unit := by simp
  flat _ _ := Example.parsed_notFlat

example : (Example.parsed.objs.length = 2) ∧ (∃ t, ParsedFeasible Example.parsed t) ∧
    ∃ o ∈ Example.parsed.objs, o.softs ≠ [] :=
  ⟨rfl, ⟨fun v => v == 0 || v == 1, by unfold ParsedFeasible; decide⟩, by decide⟩

/-- What is printed for the example. -/
example : Example.main { alg := .biOptSat } false Example.parsed =
    .printed [] [⟨[1, 6], [[.ff, .tt, .tt, .tt]]⟩, ⟨[2, 3], [[.tt, .ff, .tt, .ff]]⟩] := by decide +kernel

/-- The first objective is 1 in all solutions. -/
def Example.flatParsed : Parsed where
  constraints := [PbCon.ofClause [Lit.pos 0], PbCon.ofClause [Lit.pos 1, Lit.pos 2]]
  objs := [⟨[([Lit.negOf 0], 1)], 0⟩, ⟨[([Lit.negOf 1], 1), ([Lit.negOf 2], 2)], 0⟩]
  vm := ⟨3, 2, 2⟩

/-- **Finding for C32.** With the default options, that is with core boosting, BiOptSat on a feasible instance with two
objectives panics (debug build) or does not end (release build: it is still searching after 50 steps, and without core
boosting it needs fewer). The other algorithms, and BiOptSat without core boosting, print the front. -/
theorem subMain_biOptSat_counterexample : ∃ p : Parsed, ParsedOK p ∧ WeightsOK p ∧ p.objs.length = 2 ∧
    (∃ t, ParsedFeasible p t) ∧ Example.main { alg := .biOptSat } true p = .panicked ∧
    Example.main { alg := .biOptSat } false p = .fuel ∧
    ∃ front, ∀ debug, Example.main { alg := .pMinimal } debug p = .printed [] front ∧
      Example.main { alg := .biOptSat, cb := { coreBoosting := false } } debug p = .printed [] front := by
  refine ⟨Example.flatParsed, ⟨rfl, by decide, by decide, by decide⟩, ⟨by decide, by decide⟩, rfl,
    ⟨fun _ => true, by unfold ParsedFeasible; decide⟩, by decide +kernel, by decide +kernel,
    [⟨[1, 1], [[.tt, .tt, .ff]]⟩], fun debug => ?_⟩
  cases debug <;> exact ⟨by decide +kernel, by decide +kernel⟩

/-- **Finding for C32.** With reindexing, costs are printed that no solution has if the soft clauses of an objective have
the same weight, other than one. -/
theorem subMain_reindexing_counterexample : ∃ (p : Parsed) (front : ParetoFront Assignment), ParsedOK p ∧ WeightsOK p ∧
    Example.main { alg := .pMinimal, reindexing := true } false p = .printed [] front ∧
    ∃ pt ∈ front, ∀ s, parsedCosts p s ≠ pt.costs := by
  refine ⟨⟨[PbCon.ofClause [Lit.pos 0]], [⟨[([Lit.negOf 0], 3)], 0⟩], ⟨1, 0, 0⟩⟩, [⟨[1], [[.tt]]⟩],
    ⟨rfl, by decide, by decide, by decide⟩, ⟨by decide, by decide⟩, by decide +kernel, _, List.mem_singleton_self _,
    fun s => ?_⟩
  simp only [parsedCosts, softCost, List.map_cons, List.map_nil, List.mem_singleton, exists_eq_left]
  split <;> simp

end Scuttle
