import Verif.Proof.CutShort
import Verif.Props.Driver
import Verif.Props.Io

/-!
# C62: limits, interrupts and the logger only cut a run short

A run with limits, interrupts or a failing logger is compared to the run of the same solver without any of them. Nothing is
assumed about the instance, the answers of the SAT solver or the state in which `solve` is called.
-/

set_option linter.unusedSectionVars false

namespace Scuttle

open Spec

variable {P C D : Type} [UbEnc P] [UbEnc C] [TotDb D] [MergeEnc P C D]
variable {env calm : Env} {s : Slv P C} {n₁ n₂ : Nat} {T : Prop}

/-- C62: the front of a call with limits and interrupts is the first part of that of the call without. -/
theorem cut_short (alg : Alg) (E : SameSolver False env calm) (hn : n₁ ≤ n₂) (limits : Limits)
    (hdone : (alg.solve n₂ Limits.none calm s).1 = .ok ()) :
    FrontPrefix (alg.solve n₁ limits env s).2.front (alg.solve n₂ Limits.none calm s).2.front := by
  have h := outcome_solve alg hn limits E (s₁ := s) (s₂ := s) ⟨rfl, rfl, rfl, rfl, rfl, .inr ⟨rfl, rfl⟩⟩
  unfold Outcome at h
  split at h
  · rw [h.2.front]; exact frontPrefix_refl _
  · exact (h () hdone).1

/-- C62: if it is not cut short, then it is the same call: result, front and statistics. -/
theorem not_cut_short (alg : Alg) (E : SameSolver False env calm) (hn : n₁ ≤ n₂) (limits : Limits)
    (hdone : (alg.solve n₁ limits env s).1 = .ok ()) :
    (alg.solve n₂ Limits.none calm s).1 = .ok () ∧
    (alg.solve n₁ limits env s).2.front = (alg.solve n₂ Limits.none calm s).2.front ∧
    (alg.solve n₁ limits env s).2.io.stats = (alg.solve n₂ Limits.none calm s).2.io.stats := by
  have h := outcome_solve alg hn limits E (s₁ := s) (s₂ := s) ⟨rfl, rfl, rfl, rfl, rfl, .inr ⟨rfl, rfl⟩⟩
  unfold Outcome at h
  rw [hdone] at h
  exact ⟨h.1, h.2.front, h.2.stats⟩

/-- C62: for a solver whose answers do not depend on the time, a logger has no influence either. -/
theorem logger_no_influence (alg : Alg) (E : SameSolver True env calm) (hn : n₁ ≤ n₂) (limits : Limits)
    (hdone : (alg.solve n₂ Limits.none calm s.detachLogger).1 = .ok ()) :
    FrontPrefix (alg.solve n₁ limits env s.attachLogger).2.front (alg.solve n₂ Limits.none calm s.detachLogger).2.front ∧
    ((alg.solve n₁ limits env s.attachLogger).1 = .ok () →
      (alg.solve n₁ limits env s.attachLogger).2.front = (alg.solve n₂ Limits.none calm s.detachLogger).2.front) := by
  have h := outcome_solve alg hn limits E (s₁ := s.attachLogger) (s₂ := s.detachLogger) ⟨rfl, rfl, rfl, rfl, rfl, .inl trivial⟩
  unfold Outcome at h
  split at h
  · rw [h.2.front]; exact ⟨frontPrefix_refl _, fun _ => rfl⟩
  · rename_i e he
    exact ⟨(h () hdone).1, fun h' => by rw [he] at h'; cases h'⟩

/-- C62: a call without limits, interrupts and failures ends with a logger if and only if it ends without; front and
statistics are the same. -/
theorem logger_same_call (alg : Alg) (E : SameSolver True calm calm) (n : Nat) :
    ((alg.solve n Limits.none calm s.attachLogger).1 = .ok () ↔ (alg.solve n Limits.none calm s.detachLogger).1 = .ok ()) ∧
    ((alg.solve n Limits.none calm s.attachLogger).1 = .ok () →
      (alg.solve n Limits.none calm s.attachLogger).2.front = (alg.solve n Limits.none calm s.detachLogger).2.front ∧
      (alg.solve n Limits.none calm s.attachLogger).2.io.stats = (alg.solve n Limits.none calm s.detachLogger).2.io.stats) := by
  have h := outcome_solve alg (Nat.le_refl n) Limits.none E (s₁ := s.attachLogger) (s₂ := s.detachLogger)
    ⟨rfl, rfl, rfl, rfl, rfl, .inl trivial⟩
  have h' := outcome_solve alg (Nat.le_refl n) Limits.none E (s₁ := s.detachLogger) (s₂ := s.attachLogger)
    ⟨rfl, rfl, rfl, rfl, rfl, .inl trivial⟩
  unfold Outcome at h h'
  refine ⟨⟨fun hd => ?_, fun hd => ?_⟩, fun hd => ?_⟩
  · rw [hd] at h; exact h.1
  · rw [hd] at h'; exact h'.1
  · rw [hd] at h; exact ⟨h.2.front, h.2.stats⟩

/-- C62: on a fresh solver and with a correct SAT solver, there is the complete front of which all fronts of calls that were
cut short are first parts. -/
theorem cut_short_exact [LawfulUbEnc P] [LawfulUbEnc C] (alg : Alg) {inst : Instance} {bcg : Assignment → Clause}
    {opts : KernelOptions} (hs : Setting inst bcg opts calm) (h0 : Started alg inst bcg opts s)
    (hflag : ∀ t, calm.flag t = false) (hlog : ∀ t, calm.logOk t = true) :
    ∃ full, ExactFront inst full ∧ ∀ env, SameSolver False env calm → ∀ fuel limits,
      FrontPrefix (alg.solve fuel limits env s).2.front full ∧
      ((alg.solve fuel limits env s).1 = .ok () → (alg.solve fuel limits env s).2.front = full) := by
  obtain ⟨N, hN⟩ := solve_done (P := P) (C := C) inst
  have hpos : LimitsFine calm Limits.none := fun _ => ⟨by simp [Limits.none], by simp [Limits.none], by simp [Limits.none],
    by simp [Limits.none]⟩
  have hd : ∀ n, N < n → (alg.solve n Limits.none calm s).1 = .ok () := fun n hn => hN alg bcg opts calm s n hs h0 hflag hlog hn
  have hcalm : SameSolver False calm calm := ⟨rfl, rfl, fun t t' h => by
    rcases h with rfl | h
    · exact fun _ _ _ => .inl rfl
    · exact h.elim, fun t t' h => by
    rcases h with rfl | h
    · exact fun _ _ _ _ => rfl
    · exact h.elim, hflag, hlog⟩
  refine ⟨(alg.solve (N + 1) Limits.none calm s).2.front, ?_, fun env E fuel limits => ?_⟩
  · have h := run_ok alg hs hpos h0 (N + 1)
    rw [hd (N + 1) (by omega)] at h
    exact h.exactFront hs.unit
  · have hsame : (alg.solve (max fuel (N + 1)) Limits.none calm s).2.front = (alg.solve (N + 1) Limits.none calm s).2.front :=
      (not_cut_short alg hcalm (Nat.le_max_right fuel (N + 1)) Limits.none (hd (N + 1) (by omega))).2.1.symm
    rw [← hsame]
    exact ⟨cut_short alg E (Nat.le_max_left _ _) limits (hd _ (by omega)),
      fun h => (not_cut_short alg E (Nat.le_max_left _ _) limits h).2.1⟩

/-! ### Examples -/

/-- The reference solver with a flag that is set at some time, at which a running call of the oracle is interrupted. The
logger fails at another time. -/
def Example.stopAt (n k : Nat) : Env :=
  { refEnv true with flag := fun t => decide (n ≤ t)
                     logOk := fun t => decide (t ≠ k)
                     oracle := fun t _ db as => if n ≤ t then .interrupted else refOracle db as }

/-- The hypothesis on the environments is met, with and without time. -/
theorem Example.stopAt_same (T : Prop) (n k : Nat) : SameSolver T (Example.stopAt n k) (refEnv true) where
  debug := rfl
  tighten := rfl
  oracle t t' _ lim db as := by
    by_cases h : n ≤ t
    · exact .inr ⟨by simp [Example.stopAt, h], fun u hu => by simp [Example.stopAt]; omega⟩
    · exact .inl (by simp [Example.stopAt, h, refEnv])
  flip t t' _ db frozen m l := rfl
  flag _ := rfl
  logOk _ := rfl

example (T : Prop) : SameSolver T (refEnv true) (refEnv true) :=
  ⟨rfl, rfl, fun _ _ _ _ _ _ => .inl rfl, fun _ _ _ _ _ _ _ => rfl, fun _ => rfl, fun _ => rfl⟩

/-- An instance with two solutions for each point. -/
def Example.twice : Instance :=
  { Example.inst with clauses := [Lit.pos 4, Lit.negOf 4] :: Example.inst.clauses, vm := ⟨5, 4, 4⟩ }

/-- How a run of lower-bounding with enumeration ends, the costs of the points and how many solutions they have. -/
def Example.sizes (limits : Limits) (env : Env) : Option (Option Stop × List (List Int × Nat)) :=
  (Example.final Example.twice .lowerBounding { enumeration := .solutions none } limits env).map fun r =>
    (match r.1 with | .ok () => none | .error e => some e, r.2.front.map fun p => (p.costs, p.sols.length))

/-- A complete run. -/
example : Example.sizes Limits.none (refEnv true) = some (none, [([0, 6], 2), ([3, 1], 2)]) := by decide +kernel

/-- A limit on the number of solutions cuts it within the last point, a flag and a failing logger before that point, an
early flag before the first point. -/
example : Example.sizes { sols := some 3 } (refEnv true) = some (some (.terminated .solsLimit), [([0, 6], 2), ([3, 1], 1)]) ∧
    Example.sizes Limits.none (Example.stopAt 70 1000) = some (some (.terminated .interrupted), [([0, 6], 2)]) ∧
    Example.sizes Limits.none (Example.stopAt 1000 100) = some (some .error, [([0, 6], 2)]) ∧
    Example.sizes Limits.none (Example.stopAt 35 1000) = some (some (.terminated .interrupted), []) :=
  ⟨by decide +kernel, by decide +kernel, by decide +kernel, by decide +kernel⟩

/-! ## The command line program -/

theorem outcome_ok {α : Type} {L : Prop} {x y : Except Stop α × Slv P C} (h : Outcome T L x y) {a : α} (hx : x.1 = .ok a) :
    y.1 = .ok a ∧ SameState T x.2 y.2 := by
  unfold Outcome at h
  rw [hx] at h
  exact h

theorem Outcome.front {α : Type} {L : Prop} {x y : Except Stop α × Slv P C} (h : Outcome T L x y) {b : α} (hy : y.1 = .ok b) :
    FrontPrefix x.2.front y.2.front := by
  unfold Outcome at h
  split at h
  · rw [h.2.front]; exact frontPrefix_refl _
  · exact (h b hy).1

theorem SameState.alike {s₁ s₂ : Slv P C} (h : SameState T s₁ s₂) : Alike T s₁ s₂ := ⟨h.k, h.encs, h.front, h.fence, h.stats, h.time⟩

section

variable [LawfulUbEnc P] [LawfulUbEnc C] [LawfulTotDb D] [LawfulMergeEnc P C D]

/-- The driver with core boosting and `solve`: a run with limits and interrupts, and one without. -/
theorem runAlg_cut_short (alg : Alg) (cb : Option CbOptions) (E : SameSolver False env calm) (hn : n₁ ≤ n₂) (limits : Limits)
    (hs : s.io.lims = Limits.none) (hlog : ∀ l, s.io.logger = some l → l = []) {w₁ w₂ : List Termination}
    (h₁ : (runAlg D alg n₁ cb limits env s).1 = .ok w₁) (h₂ : (runAlg D alg n₂ cb Limits.none calm s).1 = .ok w₂) :
    w₂ = [] ∧ FrontPrefix (runAlg D alg n₁ cb limits env s).2.front (runAlg D alg n₂ cb Limits.none calm s).2.front ∧
    (w₁ = [] → (runAlg D alg n₁ cb limits env s).2.front = (runAlg D alg n₂ cb Limits.none calm s).2.front) := by
  have hcb : ∀ o, Outcome False (LogFine env) (coreBoost D n₁ o env s) (coreBoost D n₂ o calm s) := fun o =>
    (rel_coreBoost hn o).run env calm E s s (.refl hs)
  have hend : ∀ o t, (coreBoost D n₂ o calm s).1 ≠ .error (.terminated t) := fun o t =>
    (rel_coreBoost (T := False) hn o).ends calm s t E.flag hs
  have hsolve : ∀ s' : Slv P C, ∀ t, (alg.solve n₂ Limits.none calm s').1 ≠ .error (.terminated t) := by
    intro s' t h
    have : (startSolving Limits.none >>= fun _ => (alg.main n₂ : M P C Unit)) calm s' = alg.solve n₂ Limits.none calm s' := by
      cases alg <;> rfl
    rw [← this] at h
    exact ends_bind (fun _ _ => rfl) (by simp [startSolving, modifyS])
      (fun _ s'' hs'' => (rel_main (T := False) alg (Nat.le_refl n₂)).ends calm s'' t E.flag hs'') h
  have hw2 : w₂ = [] := by
    rcases driver_warnings alg n₂ cb Limits.none w₂ h₂ with ⟨h, -⟩ | ⟨t, -, ⟨-, h⟩ | ⟨o, -, h⟩⟩
    · exact h
    · exact absurd h (hsolve _ t)
    · exact absurd h (hend o t)
  have hboth : ∀ u₁ u₂ : Slv P C, SameState False u₁ u₂ →
      Outcome False (LogFine env) (alg.solve n₁ limits env u₁) (alg.solve n₂ Limits.none calm u₂) := fun u₁ u₂ h =>
    outcome_solve alg hn limits E h.alike
  refine ⟨hw2, ?_⟩
  by_cases hg : GoesOn D n₁ cb env s
  · -- the run with limits calls `solve`
    have hsame : SameState False (afterBoost D n₁ cb env s) (afterBoost D n₂ cb calm s) := by
      cases cb with
      | none => exact .refl hs
      | some o => exact (outcome_ok (hcb o) (hg o rfl)).2
    have hg2 : GoesOn D n₂ cb calm s := fun o ho => (outcome_ok (hcb o) (hg o ho)).1
    have hO := hboth _ _ hsame
    obtain ⟨a1, a2⟩ := runAlg_goesOn alg limits hg
    obtain ⟨b1, b2⟩ := runAlg_goesOn alg Limits.none hg2
    rw [a1, b1]
    rw [b2, hw2] at h₂
    have hd2 : (alg.solve n₂ Limits.none calm (afterBoost D n₂ cb calm s)).1 = .ok () := by
      revert h₂
      generalize (alg.solve n₂ Limits.none calm (afterBoost D n₂ cb calm s)).1 = r
      intro h₂
      rcases r with e | u
      · cases e <;> simp at h₂
      · rfl
    refine ⟨hO.front hd2, fun hw => ?_⟩
    rw [a2, hw] at h₁
    refine (outcome_ok hO (a := ()) ?_).2.front
    revert h₁
    generalize (alg.solve n₁ limits env (afterBoost D n₁ cb env s)).1 = r
    intro h₁
    rcases r with e | u
    · cases e <;> simp at h₁
    · rfl
  · obtain ⟨a1, o, rfl, a2⟩ := runAlg_stops alg limits hg
    have hf1 : (runAlg D alg n₁ (some o) limits env s).2.front = s.front := driver_front_unchanged alg n₁ (some o) limits hlog hg
    by_cases hg2 : GoesOn D n₂ (some o) calm s
    · -- only the other one does
      obtain ⟨b1, b2⟩ := runAlg_goesOn alg Limits.none hg2
      rw [b2, hw2] at h₂
      have hc := hcb o
      have hfb : (afterBoost D n₂ (some o) calm s).front = s.front := (coreBoost_frame hlog n₂ o).1
      refine ⟨?_, fun hw => ?_⟩
      · rw [hf1, b1, ← hfb]
        have hm : ∀ (s' : Slv P C), (alg.solve n₂ Limits.none calm s').1 = .ok () →
            s'.front <+: (alg.solve n₂ Limits.none calm s').2.front := by
          intro s' h
          have : (startSolving Limits.none >>= fun _ => (alg.main n₂ : M P C Unit)) calm s' = alg.solve n₂ Limits.none calm s' := by
            cases alg <;> rfl
          rw [← this] at h ⊢
          exact (grows_bind (fun _ _ => ⟨List.prefix_refl _, rfl⟩)
            (fun _ s'' b hs'' => (rel_main (T := False) alg (Nat.le_refl n₂)).grows calm s'' b hs'') h).1
        refine frontPrefix_of_prefix (hm _ ?_)
        revert h₂
        generalize (alg.solve n₂ Limits.none calm (afterBoost D n₂ (some o) calm s)).1 = r
        intro h₂
        rcases r with e | u
        · cases e <;> simp at h₂
        · rfl
      · -- without a warning, both found the instance unsatisfiable
        exfalso
        rw [a2, hw] at h₁
        rcases hr : (coreBoost D n₁ o env s).1 with e | b
        · rw [hr] at h₁; cases e <;> simp at h₁
        · have := (outcome_ok hc hr).1
          rw [hg2 o rfl] at this
          cases this
          exact hg fun o' ho' => by cases ho'; exact hr
    · have hf2 : (runAlg D alg n₂ (some o) Limits.none calm s).2.front = s.front :=
        driver_front_unchanged alg n₂ (some o) Limits.none hlog hg2
      rw [hf1, hf2]
      exact ⟨frontPrefix_refl _, fun _ => rfl⟩

omit [UbEnc P] [UbEnc C] [TotDb D] [MergeEnc P C D] [LawfulUbEnc P] [LawfulUbEnc C] [LawfulTotDb D] [LawfulMergeEnc P C D] in
theorem frontPrefix_map {S S2 : Type} (c : S → S2) {f g : ParetoFront S} (h : FrontPrefix f g) :
    FrontPrefix (f.map fun p => ⟨p.costs, p.sols.map c⟩ : ParetoFront S2) (g.map fun p => ⟨p.costs, p.sols.map c⟩) := by
  induction h with
  | nil g => exact .nil _
  | last p q g hc hs => exact .last _ _ _ hc (hs.map c)
  | cons p f g _ ih => exact .cons _ _ _ ih

omit [UbEnc P] [UbEnc C] [TotDb D] [MergeEnc P C D] [LawfulUbEnc P] [LawfulUbEnc C] [LawfulTotDb D] [LawfulMergeEnc P C D] in
theorem frontPrefix_convert (r : Option Reindexer) {f g : ParetoFront Assignment} (h : FrontPrefix f g) :
    FrontPrefix (postSolve r f) (postSolve r g) := by
  cases r with
  | none => exact h
  | some r =>
    unfold postSolve
    dsimp only
    rw [convertSolutions_map, convertSolutions_map]
    exact frontPrefix_map _ h

omit [TotDb D] [MergeEnc P C D] [LawfulUbEnc P] [LawfulUbEnc C] [LawfulTotDb D] [LawfulMergeEnc P C D] in
theorem new_lims (alg : Alg) {inst : Instance} {bcg : Assignment → Clause} {opts : KernelOptions}
    (h : alg.new inst bcg opts = some s) : s.io.lims = Limits.none := by
  have key : ∀ {k io}, Kern.new inst.clauses inst.objs inst.vm bcg opts = some (k, io) → io.lims = Limits.none := by
    intro k io h
    unfold Kern.new at h
    split at h
    · cases h
    · cases h; rfl
  have hnew : ∀ {s : Slv P C}, Slv.new inst bcg opts = some s → s.io.lims = Limits.none := by
    intro s h
    unfold Slv.new at h
    rw [Option.map_eq_some_iff] at h
    obtain ⟨⟨k, io⟩, hk, rfl⟩ := h
    exact key hk
  cases alg with
  | pMinimal => exact hnew h
  | lowerBounding => exact hnew h
  | biOptSat =>
    simp only [Alg.new, Option.bind_eq_some_iff] at h
    obtain ⟨⟨k, io⟩, hk, h⟩ := h
    unfold Slv.initBos at h
    split at h
    · cases h; exact key hk
    · cases h

/-- C62: the program with limits or interrupts prints the first part of the front that it prints without. -/
theorem driver_cut_short {cli : Cli} {inst : Instance} {r : Option Reindexer} (E : SameSolver False env calm) (hn : n₁ ≤ n₂)
    {w₁ w₂ : List Termination} {f₁ f₂ : ParetoFront Assignment}
    (h₁ : solveInstance P C D cli n₁ env inst r = .printed w₁ f₁)
    (h₂ : solveInstance P C D { cli with limits := {} } n₂ calm inst r = .printed w₂ f₂) :
    w₂ = [] ∧ FrontPrefix f₁ f₂ ∧ (w₁ = [] → f₁ = f₂) := by
  unfold solveInstance at h₁ h₂
  split at h₁
  · cases h₁
  · rename_i hne
    rw [if_neg hne] at h₂
    have hopts : Cli.opts { cli with limits := {} } = cli.opts := rfl
    rw [hopts] at h₂
    dsimp only at h₂
    rcases hnew : (cli.alg.new inst defaultBlockingClause cli.opts : Option (Slv P C)) with _ | s
    · rw [hnew] at h₁; cases h₁
    · rw [hnew] at h₁ h₂
      dsimp only at h₁ h₂
      have hl : LimitArgs.limits {} = Limits.none := rfl
      rw [hl] at h₂
      have hs : s.attachLogger.io.lims = Limits.none := (new_lims cli.alg hnew : s.io.lims = Limits.none)
      rcases hr1 : (runAlg D cli.alg n₁ cli.cb.parse.1 cli.limits.limits env s.attachLogger).1 with e | v₁
      · rw [hr1] at h₁; cases e <;> cases h₁
      · rcases hr2 : (runAlg D cli.alg n₂ cli.cb.parse.1 Limits.none calm s.attachLogger).1 with e | v₂
        · rw [hr2] at h₂; cases e <;> cases h₂
        · obtain ⟨a, b, c⟩ := runAlg_cut_short cli.alg cli.cb.parse.1 E hn cli.limits.limits hs
            (fun l hl => by cases hl; rfl) hr1 hr2
          rw [hr1] at h₁
          rw [hr2] at h₂
          cases h₁
          cases h₂
          exact ⟨a, frontPrefix_convert r b, fun h => by rw [c h]⟩

/-- C62: the same for the program on what was parsed, with and without reindexing. -/
theorem subMain_cut_short {enc : PbCon → Nat → List Clause × Nat} {cli : Cli} {p : Parsed} (E : SameSolver False env calm)
    (hn : n₁ ≤ n₂) {w₁ w₂ : List Termination} {f₁ f₂ : ParetoFront Assignment}
    (h₁ : subMain P C D enc cli n₁ env p = .printed w₁ f₁)
    (h₂ : subMain P C D enc { cli with limits := {} } n₂ calm p = .printed w₂ f₂) :
    w₂ = [] ∧ FrontPrefix f₁ f₂ ∧ (w₁ = [] → f₁ = f₂) := by
  unfold subMain at h₁ h₂
  rw [← E.debug] at h₂
  split at h₁
  · cases h₁
  · rename_i inst hi
    rw [hi] at h₂
    dsimp only at h₂
    split at h₁
    · rename_i hr
      rw [if_pos hr] at h₂
      rcases hx : reindexing inst with _ | ⟨r, inst'⟩
      · rw [hx] at h₁; cases h₁
      · rw [hx] at h₁ h₂; exact driver_cut_short E hn h₁ h₂
    · rename_i hr
      rw [if_neg hr] at h₂
      exact driver_cut_short E hn h₁ h₂

/-- With a limit, the first of two points is printed. -/
example : Example.main { alg := .biOptSat, limits := { ppLimit := 1 } } false Example.parsed =
    .printed [.ppLimit] [⟨[1, 6], [[.ff, .tt, .tt, .tt]]⟩] ∧
    Example.main { alg := .biOptSat } false Example.parsed =
    .printed [] [⟨[1, 6], [[.ff, .tt, .tt, .tt]]⟩, ⟨[2, 3], [[.tt, .ff, .tt, .ff]]⟩] :=
  ⟨by decide +kernel, by decide +kernel⟩

end

end Scuttle
