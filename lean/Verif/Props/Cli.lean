import Verif.SpecCli
import Verif.Proof.CbFrame
import Verif.Props.CoreBoost
import Verif.Props.Io

/-!
# C30, C31, C45, C50: options, file formats and the logger of the command line program
-/

set_option linter.unusedSectionVars false

namespace Scuttle

open Spec

variable {P C D : Type} {env : Env} {s : Slv P C}

/-! ## C30 -/

section Options

/-- C30: no limit handed to the solver is 0. -/
theorem cli_limits_pos (a : LimitArgs) : PosLimits a.limits := by
  constructor <;> simp only [LimitArgs.limits, noneIfZero] <;> split <;> simp_all

variable [UbEnc P] [UbEnc C]

/-- C30: a limit of 0 on the command line is no limit, and `n ≥ 1` is a limit of `n`. -/
theorem cli_limits_respected (alg : Alg) (a : LimitArgs) (fuel : Nat) (k : Limited) :
    let r := alg.solve fuel a.limits env s
    (k.arg a ≠ 0 → counted k s r.2 ≤ k.arg a ∧ (r.1 = .ok () → counted k s r.2 < k.arg a) ∧
      (r.1 = .error (.terminated k.reason) → counted k s r.2 = k.arg a)) ∧
    (k.arg a = 0 → r.1 ≠ .error (.terminated k.reason)) := by
  have h := limits_respected (env := env) (s := s) alg (cli_limits_pos a) fuel k
  have hk : k.limit a.limits = if k.arg a = 0 then none else some (k.arg a) := by cases k <;> rfl
  refine ⟨fun h0 => ?_, fun h0 => ?_⟩
  · rw [if_neg h0] at hk
    obtain ⟨h1, h2, h3, -⟩ := h.1 _ hk
    exact ⟨h1, h2, h3⟩
  · rw [if_pos h0] at hk
    exact h.2 hk

/-- Two of the limits are set in this case. -/
example : Limited.arg .points { ppLimit := 1, oracleCallLimit := 7 } ≠ 0 ∧
    Limited.arg .solutions { ppLimit := 1, oracleCallLimit := 7 } = 0 := by decide

/-- C30: the clauses are stored exactly if core boosting is to be done and to be followed by a reset. -/
theorem cli_stores_cnf (c : Cli) :
    c.opts.storeCnf = true ↔ ∃ cb, c.cb.parse.1 = some cb ∧ cb.after = .reset := by
  cases c with
  | mk alg kernel cb limits re =>
    cases cb with
    | mk cbo reb res => cases cbo <;> cases res <;> simp [Cli.opts, KernelArgs.kernelOpts, CbArgs.parse]

variable [LawfulUbEnc P] [LawfulUbEnc C] [TotDb D] [LawfulTotDb D] [MergeEnc P C D] [LawfulMergeEnc P C D]
variable {inst : Instance} {bcg : Assignment → Clause}

/-- C30: core boosting as requested on the command line does not fail, unless the logger does. -/
theorem cli_coreBoost_no_error (c : Cli) {cb : CbOptions} (hcb : c.cb.parse.1 = some cb)
    (hs : Setting inst bcg c.opts env) (nd : NoDupCores env) (hn : NoDupLits inst)
    (h0 : Started c.alg inst bcg c.opts s) (hlog : ∀ t, env.logOk t = true) (fuel : Nat) :
    (coreBoost D fuel cb env s).1 ≠ .error .error := by
  have h := wp_coreBoost (D := D) (fuel := fuel) (cb := cb) hs nd hn (fresh_fine hs.wf (started_fresh h0))
  unfold wp at h
  cases hr : coreBoost D fuel cb env s with
  | mk r s1 =>
    rw [hr] at h
    simp only
    cases r with
    | ok b => simp
    | error e =>
      simp only [CbStop] at h
      intro h'
      simp only [Except.error.injEq] at h'
      subst h'
      rcases h.2 with ⟨t, ht⟩ | ⟨h1, h2⟩
      · rw [hlog t] at ht
        simp at ht
      · rw [(cli_stores_cnf c).2 ⟨cb, hcb, h1⟩] at h2
        simp at h2

/-- The hypotheses are met, with a reset. -/
example : CbArgs.parse { resetAfterCb := true } = (some { rebase := false, after := .reset }, true) ∧
    ∀ opts, Setting Example.inst defaultBlockingClause opts (refEnv true) := ⟨rfl, Example.setting⟩

/-- C30: with `--enumeration solutions` and a limit of `n ≥ 1` at most `n` solutions are listed for a point, with a limit
of 0 all of them; without enumeration there is one. -/
theorem cli_enumeration (c : Cli) {limits : Limits} (hs : Setting inst defaultBlockingClause c.opts env)
    (hl : LimitsFine env limits) (h0 : Started c.alg inst defaultBlockingClause c.opts s) (fuel : Nat) :
    let r := c.alg.solve fuel limits env s
    (c.kernel.enumeration = .noEnum → ∀ p ∈ r.2.front, p.sols.length = 1) ∧
    (c.kernel.enumeration ≠ .noEnum → c.kernel.enumerationLimit ≠ 0 →
      ∀ p ∈ r.2.front, p.sols.length ≤ c.kernel.enumerationLimit) ∧
    (c.kernel.enumeration = .solutions → c.kernel.enumerationLimit = 0 → r.1 = .ok () →
      ∀ t, (problem inst).ParetoOptimal t → ∃ p ∈ r.2.front, p.costs = (problem inst).costs t ∧
        ∃ x ∈ p.sols, Shows inst x t) := by
  refine ⟨fun he p hp => ?_, fun he hn p hp => ?_, fun he hn hd => ?_⟩
  · exact (enumeration_limit c.alg hs hl h0 fuel p hp).1 (by simp [Cli.opts, KernelArgs.kernelOpts, he])
  · refine (enumeration_limit c.alg hs hl h0 fuel p hp).2 _ (by omega) ?_
    cases hk : c.kernel.enumeration with
    | noEnum => exact absurd hk he
    | solutions => exact Or.inl (by simp [Cli.opts, KernelArgs.kernelOpts, hk, noneIfZero, hn])
    | paretoMCS => exact Or.inr (by simp [Cli.opts, KernelArgs.kernelOpts, hk, noneIfZero, hn])
  · exact (enumeration_complete c.alg hs hl h0 fuel (by simp [Cli.opts, KernelArgs.kernelOpts, he, noneIfZero, hn]) hd).1

end Options

/-! ## C31 -/

theorem takeWhile_dot (l : List Char) : '.' ∉ l.takeWhile (· ≠ '.') ∧
    ('.' ∈ l → ∃ r, l = l.takeWhile (· ≠ '.') ++ '.' :: r) := by
  induction l with
  | nil => simp
  | cons a l ih =>
    by_cases ha : a = '.'
    · subst ha
      simp
    · rw [List.takeWhile_cons_of_pos (by simpa using ha)]
      refine ⟨?_, fun h => ?_⟩
      · simp only [List.mem_cons, not_or]
        exact ⟨fun h => ha h.symm, ih.1⟩
      · obtain ⟨r, hr⟩ := ih.2 (by
          rcases List.mem_cons.1 h with h | h
          · exact absurd h.symm ha
          · exact h)
        exact ⟨r, by rw [List.cons_append, ← hr]⟩

theorem splitExt_iff (name stem ext : List Char) : splitExt name = some (stem, ext) ↔ HasExt name stem ext := by
  unfold splitExt HasExt
  have hlen : ∀ a b : List Char, (a ++ '.' :: b).length - b.length - 1 = a.length := by
    intro a b
    simp only [List.length_append, List.length_cons]
    omega
  constructor
  · intro h
    split at h
    · rename_i hmem
      simp only at h
      split at h
      · simp at h
      · rename_i hst
        simp only [Option.some.injEq, Prod.mk.injEq] at h
        obtain ⟨h1, h2⟩ := h
        obtain ⟨t1, t2⟩ := takeWhile_dot name.reverse
        obtain ⟨r, hr⟩ := t2 (by simpa using hmem)
        generalize name.reverse.takeWhile (· ≠ '.') = t at *
        have hname : name = r.reverse ++ '.' :: ext := by
          have := congrArg List.reverse hr
          rw [List.reverse_reverse] at this
          rw [this, ← h2]
          simp
        have hstem : stem = r.reverse := by rw [← h1, h2, hname, hlen, List.take_left' rfl]
        refine ⟨fun h0 => hst (by rw [h1]; exact h0), ?_, by rw [hstem]; exact hname⟩
        rw [← h2, List.mem_reverse]
        exact t1
    · simp at h
  · rintro ⟨h1, h2, rfl⟩
    have hext : ((stem ++ '.' :: ext).reverse.takeWhile (· ≠ '.')).reverse = ext := by
      have : (stem ++ '.' :: ext).reverse = ext.reverse ++ '.' :: stem.reverse := by simp
      rw [this, List.takeWhile_append_of_pos]
      · simp
      · intro x hx
        simp only [decide_eq_true_eq, ne_eq]
        rintro rfl
        exact h2 (List.mem_reverse.1 hx)
    rw [if_pos (by simp)]
    simp only [hext]
    rw [hlen, List.take_left' rfl, if_neg h1]

theorem splitExt_none_iff (name : List Char) : splitExt name = none ↔ ∀ stem ext, ¬ HasExt name stem ext := by
  constructor
  · intro h stem ext he
    rw [(splitExt_iff _ _ _).2 he] at h
    simp at h
  · intro h
    cases hs : splitExt name with
    | none => rfl
    | some p => exact absurd ((splitExt_iff name p.1 p.2).1 hs) (h _ _)

theorem HasExt.unique {name stem ext stem' ext' : List Char} (h : HasExt name stem ext) (h' : HasExt name stem' ext') :
    stem = stem' ∧ ext = ext' := by
  rw [← splitExt_iff] at h h'
  rw [h] at h'
  simpa using h'

theorem mem_compressions (ext : List Char) :
    ext ∈ ["gz".toList, "bz2".toList, "xz".toList] ↔ ∃ c ∈ compressions, ext = c.toList := by
  simp [compressions]

/-- The extension by which the parser is chosen. -/
theorem parserFor_infer_ext {name stem ext : List Char} (h : HasFormatExt name stem ext) :
    parserFor name .infer =
      if ∃ e ∈ extensions .clausal, ext = e.toList then .ok .clausal
      else if ∃ e ∈ extensions .pseudoBoolean, ext = e.toList then .ok .pseudoBoolean
      else .error (.unknownExtension ext) := by
  have h1 : (∃ e ∈ extensions .clausal, ext = e.toList) ↔
      ext ∈ ["mcnf".toList, "bicnf".toList, "wcnf".toList, "cnf".toList, "dimacs".toList] := by simp [extensions]
  have h2 : (∃ e ∈ extensions .pseudoBoolean, ext = e.toList) ↔
      ext ∈ ["opb".toList, "mopb".toList, "pbmo".toList] := by simp [extensions]
  simp only [h1, h2]
  unfold parserFor
  rcases h with ⟨h, hc⟩ | ⟨c, hc, inner, h, h'⟩
  · rw [(splitExt_iff _ _ _).2 h]
    simp only
    rw [if_neg (by rw [mem_compressions]; rintro ⟨c, hc', he⟩; exact hc c hc' he)]
  · rw [(splitExt_iff _ _ _).2 h]
    simp only
    rw [if_pos ((mem_compressions _).2 ⟨c, hc, rfl⟩), (splitExt_iff _ _ _).2 h']

theorem parserFor_infer_none {name : List Char} (h : ∀ stem ext, ¬ HasFormatExt name stem ext) :
    parserFor name .infer = .error .noExtension := by
  unfold parserFor
  cases hs : splitExt name with
  | none => rfl
  | some p =>
    obtain ⟨stem, ext⟩ := p
    have he := (splitExt_iff _ _ _).1 hs
    simp only
    by_cases hc : ∃ c ∈ compressions, ext = c.toList
    · rw [if_pos ((mem_compressions _).2 hc)]
      obtain ⟨c, hc, rfl⟩ := hc
      cases hs' : splitExt stem with
      | none => rfl
      | some q => exact absurd (Or.inr ⟨c, hc, stem, he, (splitExt_iff _ q.1 q.2).1 hs'⟩) (h q.1 q.2)
    · exact absurd (Or.inl ⟨he, fun c hc' h' => hc ⟨c, hc', h'⟩⟩) (h stem ext)

/-- C31: a kind of parser is chosen exactly for its extensions, possibly followed by that of a compressed file. -/
theorem parserFor_infer_ok (name : List Char) (k : ParserKind) :
    parserFor name .infer = .ok k ↔ ∃ stem, ∃ ext ∈ extensions k, HasFormatExt name stem ext.toList := by
  have hdis : ∀ e ∈ extensions .clausal, ∀ e' ∈ extensions .pseudoBoolean, e'.toList ≠ e.toList := by decide
  constructor
  · intro h
    by_cases hf : ∃ stem ext, HasFormatExt name stem ext
    · obtain ⟨stem, ext, hf⟩ := hf
      rw [parserFor_infer_ext hf] at h
      split at h
      · rename_i he
        obtain ⟨e, he, rfl⟩ := he
        simp only [Except.ok.injEq] at h
        subst h
        exact ⟨stem, e, he, hf⟩
      · split at h
        · rename_i he
          obtain ⟨e, he, rfl⟩ := he
          simp only [Except.ok.injEq] at h
          subst h
          exact ⟨stem, e, he, hf⟩
        · simp at h
    · rw [parserFor_infer_none fun stem ext he => hf ⟨stem, ext, he⟩] at h
      simp at h
  · rintro ⟨stem, ext, he, hf⟩
    rw [parserFor_infer_ext hf]
    cases k with
    | clausal => rw [if_pos ⟨ext, he, rfl⟩]
    | pseudoBoolean =>
      rw [if_neg, if_pos ⟨ext, he, rfl⟩]
      rintro ⟨e, he', h'⟩
      exact hdis e he' ext he h'

/-- C31: the errors. A file name without extension, except for that of a compressed file, is refused as such; any other
extension is named in the error. -/
theorem parserFor_infer_error (name : List Char) (e : FormatError) :
    parserFor name .infer = .error e ↔
      match e with
      | .noExtension => ∀ stem ext, ¬ HasFormatExt name stem ext
      | .unknownExtension ext => (∃ stem, HasFormatExt name stem ext) ∧ ∀ k, ∀ x ∈ extensions k, ext ≠ x.toList := by
  by_cases hf : ∃ stem ext, HasFormatExt name stem ext
  · obtain ⟨stem, ext, hf⟩ := hf
    rw [parserFor_infer_ext hf]
    have huniq : ∀ stem' ext', HasFormatExt name stem' ext' → ext' = ext := by
      intro stem' ext' hf'
      rcases hf with ⟨h1, h2⟩ | ⟨c, hc, inner, h1, h2⟩ <;> rcases hf' with ⟨g1, g2⟩ | ⟨c', hc', inner', g1, g2⟩
      · exact (HasExt.unique g1 h1).2
      · exact absurd (HasExt.unique g1 h1).2.symm (h2 c' hc')
      · exact absurd (HasExt.unique g1 h1).2 (g2 c hc)
      · obtain ⟨rfl, -⟩ := HasExt.unique g1 h1
        exact (HasExt.unique g2 h2).2
    cases e with
    | noExtension =>
      simp only
      constructor
      · intro h
        split at h
        · simp at h
        · split at h <;> simp at h
      · intro h
        exact absurd hf (h stem ext)
    | unknownExtension x =>
      simp only
      constructor
      · intro h
        split at h
        · simp at h
        · split at h
          · simp at h
          · rename_i h1 h2
            simp only [Except.error.injEq, FormatError.unknownExtension.injEq] at h
            subst h
            refine ⟨⟨stem, hf⟩, fun k y hy he => ?_⟩
            cases k with
            | clausal => exact h1 ⟨y, hy, he⟩
            | pseudoBoolean => exact h2 ⟨y, hy, he⟩
      · rintro ⟨⟨stem', hf'⟩, h⟩
        obtain rfl := huniq _ _ hf'
        rw [if_neg (by rintro ⟨y, hy, he⟩; exact h _ y hy he), if_neg (by rintro ⟨y, hy, he⟩; exact h _ y hy he)]
  · have hno : ∀ stem ext, ¬ HasFormatExt name stem ext := fun stem ext he => hf ⟨stem, ext, he⟩
    rw [parserFor_infer_none hno]
    cases e with
    | noExtension => simpa using hno
    | unknownExtension x =>
      constructor
      · intro h
        cases h
      · rintro ⟨⟨stem, h⟩, -⟩
        exact absurd h (hno _ _)

/-- File names with one and two dots, hidden files and names that consist of an extension only. -/
example : HasFormatExt "a.b.cnf.xz".toList "a.b".toList "cnf".toList := by
  refine Or.inr ⟨"xz", by decide, "a.b.cnf".toList, ⟨by decide, by decide, by decide⟩, ⟨by decide, by decide, by decide⟩⟩
example : parserFor "a.b.cnf.xz".toList .infer = .ok .clausal := by decide
example : parserFor "problem.opb".toList .infer = .ok .pseudoBoolean := by decide
example : parserFor ".cnf".toList .infer = .error .noExtension := by decide
example : parserFor "problem.gz".toList .infer = .error .noExtension := by decide
example : parserFor "problem.cnf.gz.gz".toList .infer = .error (.unknownExtension "gz".toList) := by decide

/-! ## C45 -/

section Logger

theorem cliLog_append (cfg : LoggerConfig) (es fs : List LogEvent) (l : CliLogger) :
    CliLogger.run cfg (es ++ fs) l = (CliLogger.run cfg es l).bind (CliLogger.run cfg fs) := by
  induction es generalizing l with
  | nil => rfl
  | cons e es ih =>
    simp only [List.cons_append, CliLogger.run]
    cases l.event cfg e with
    | none => rfl
    | some l1 => exact ih l1

theorem lineMessages_append (ks ls : List LogLine) : lineMessages (ks ++ ls) = lineMessages ks ++ lineMessages ls := by
  induction ks with
  | nil => rfl
  | cons k ks ih => cases k <;> simp [lineMessages, ih]

theorem Spec.OnlyMessages.append {ks ls : List LogLine} (h1 : OnlyMessages ks) (h2 : OnlyMessages ls) :
    OnlyMessages (ks ++ ls) := by
  intro l hl
  rcases List.mem_append.1 hl with h | h
  · exact h1 l h
  · exact h2 l h

theorem cliLog_other (cfg : LoggerConfig) (l : CliLogger) (e : LogEvent) (h1 : ∀ x, e ≠ .routineStart x)
    (h2 : e ≠ .routineEnd) : l.event cfg e = some (if cfg.prints e then { l with out := l.out ++ [.message e] } else l) := by
  cases e with
  | routineStart x => exact absurd rfl (h1 x)
  | routineEnd => exact absurd rfl h2
  | _ => rfl

/-- C45: for routines that are nested, so is the output. All other messages asked for are printed, in order, and nothing
about routines that are too deep. -/
theorem cliLog_balanced (cfg : LoggerConfig) {es : List LogEvent} (h : Balanced es) (l : CliLogger) :
    ∃ ls, CliLogger.run cfg es l = some ⟨l.stack, l.out ++ ls⟩ ∧ Nested ls ∧
      lineMessages ls = es.filter cfg.prints ∧ (cfg.logRoutines ≤ l.stack.length → OnlyMessages ls) := by
  induction h generalizing l with
  | nil => exact ⟨[], by simp [CliLogger.run], .nil, rfl, fun _ _ h => by simp at h⟩
  | other e h1 h2 =>
    simp only [CliLogger.run, cliLog_other cfg l e h1 h2, Option.bind_some]
    by_cases hp : cfg.prints e = true
    · refine ⟨[.message e], by rw [if_pos hp], .message e, by simp [lineMessages, hp], fun _ k hk => ?_⟩
      exact ⟨e, by simpa using hk⟩
    · refine ⟨[], by rw [if_neg hp]; simp, .nil, by simp [lineMessages, hp], fun _ _ h => by simp at h⟩
  | @wrap es x h ih =>
    obtain ⟨ls, i1, i2, i3, i4⟩ := ih (l.start cfg x)
    have hrun : ∀ l2, CliLogger.finish cfg ⟨x :: l.stack, (l.start cfg x).out ++ ls⟩ = some l2 →
        CliLogger.run cfg (.routineStart x :: es ++ [.routineEnd]) l = some l2 := by
      intro l2 h2
      rw [cliLog_append]
      simp only [CliLogger.run, CliLogger.event, Option.bind_some, i1]
      simp only [CliLogger.start] at h2 ⊢
      rw [h2]
      rfl
    have hmsg : es.filter cfg.prints = (LogEvent.routineStart x :: es ++ [LogEvent.routineEnd]).filter cfg.prints := by
      simp [LoggerConfig.prints]
    by_cases hd : cfg.logRoutines > l.stack.length
    · refine ⟨.routineStart x :: ls ++ [.routineEnd x], hrun _ ?_, .wrap x i2, ?_, fun h => by omega⟩
      · simp only [CliLogger.finish, CliLogger.start, List.length_cons]
        rw [if_pos hd, if_pos (by omega)]
        simp
      · rw [lineMessages_append, ← hmsg, ← i3]
        simp [lineMessages]
    · refine ⟨ls, hrun _ ?_, i2, by rw [i3, hmsg], fun _ => i4 ?_⟩
      · simp only [CliLogger.finish, CliLogger.start, List.length_cons]
        rw [if_neg hd, if_neg (by omega)]
      · simp only [CliLogger.start, List.length_cons]
        omega
  | append h1 h2 ih1 ih2 =>
    obtain ⟨ls1, a1, a2, a3, a4⟩ := ih1 l
    obtain ⟨ls2, b1, b2, b3, b4⟩ := ih2 ⟨l.stack, l.out ++ ls1⟩
    refine ⟨ls1 ++ ls2, ?_, a2.append b2, ?_, fun h => Spec.OnlyMessages.append (a4 h) (b4 h)⟩
    · rw [cliLog_append, a1, Option.bind_some, b1]
      simp
    · rw [lineMessages_append, a3, b3, List.filter_append]

/-- C45: a routine is shown with its start and its end if it is less deep than asked for, and not at all otherwise. -/
theorem cliLog_routine (cfg : LoggerConfig) {mid : List LogEvent} (h : Balanced mid) (x : String) (l : CliLogger) :
    ∃ ls, CliLogger.run cfg (.routineStart x :: mid ++ [.routineEnd]) l =
        some ⟨l.stack, l.out ++ if l.stack.length < cfg.logRoutines then .routineStart x :: ls ++ [.routineEnd x] else ls⟩ ∧
      Nested ls ∧ (cfg.logRoutines ≤ l.stack.length → OnlyMessages ls) := by
  obtain ⟨ls, i1, i2, -, i4⟩ := cliLog_balanced cfg h (l.start cfg x)
  refine ⟨ls, ?_, i2, fun h => i4 (by simp only [CliLogger.start, List.length_cons]; omega)⟩
  rw [cliLog_append]
  simp only [CliLogger.run, CliLogger.event, Option.bind_some, i1]
  simp only [CliLogger.start, CliLogger.finish, List.length_cons]
  by_cases hd : l.stack.length < cfg.logRoutines
  · rw [if_pos hd, if_pos (by omega), if_pos hd]
    simp [CliLogger.run]
  · rw [if_neg hd, if_neg (by omega), if_neg hd]
    simp [CliLogger.run]

/-- Both cases occur: the inner routine is too deep in this example. -/
example : Balanced [.routineStart "a", .routineStart "b", .solution, .routineEnd, .routineEnd] :=
  .wrap "a" (.wrap "b" (.other .solution (by simp) (by simp)))
example : CliLogger.run { LogArgs.config { logSolutions := true } .pMinimal with logRoutines := 1 }
    [.routineStart "a", .routineStart "b", .solution, .routineEnd, .routineEnd] {} =
    some { out := [.routineStart "a", .message .solution, .routineEnd "a"] } := by decide

/-- C45: the logger does not panic as long as there is no end without start; it remembers as many routines as have not
ended, and if these were ended by `log_end_solve`, the output would be nested. -/
theorem cliLog_opened (cfg : LoggerConfig) {d : Nat} {es : List LogEvent} (h : Opened d es) :
    ∃ l, CliLogger.run cfg es {} = some l ∧ l.stack.length = d ∧ Nested (CliLogger.endSolve cfg l.stack l.out) ∧
      lineMessages l.out = es.filter cfg.prints := by
  have key : ∃ l, CliLogger.run cfg es {} = some l ∧ l.stack.length = d ∧
      (∀ ls, Nested ls → Nested (CliLogger.endSolve cfg l.stack (l.out ++ ls))) ∧
      lineMessages l.out = es.filter cfg.prints := by
    induction h with
    | zero h =>
      obtain ⟨ls, i1, i2, i3, -⟩ := cliLog_balanced cfg h {}
      exact ⟨_, i1, rfl, fun k hk => by simpa [CliLogger.endSolve] using i2.append hk, by simpa using i3⟩
    | @succ d es fs x h1 h2 ih =>
      obtain ⟨l, j1, j2, j3, j4⟩ := ih
      obtain ⟨ls, i1, i2, i3, i4⟩ := cliLog_balanced cfg h2 (l.start cfg x)
      refine ⟨⟨x :: l.stack, (l.start cfg x).out ++ ls⟩, ?_, by simp [j2], fun k hk => ?_, ?_⟩
      · rw [cliLog_append, j1, Option.bind_some]
        simp only [CliLogger.run, CliLogger.event, Option.bind_some]
        rw [i1]
        rfl
      · simp only [CliLogger.endSolve, CliLogger.start, List.length_cons]
        by_cases hd : cfg.logRoutines > l.stack.length
        · rw [if_pos hd, if_pos (by omega)]
          have := j3 _ (.wrap x (i2.append hk))
          simpa using this
        · rw [if_neg hd, if_neg (by omega)]
          have := j3 _ (i2.append hk)
          simpa using this
      · simp only [CliLogger.start]
        rw [lineMessages_append, i3, List.filter_append, ← j4]
        by_cases hd : cfg.logRoutines ≥ (x :: l.stack).length
        · rw [if_pos hd, lineMessages_append]
          simp [lineMessages, LoggerConfig.prints]
        · rw [if_neg hd]
          simp [LoggerConfig.prints]
  obtain ⟨l, k1, k2, k3, k4⟩ := key
  exact ⟨l, k1, k2, by simpa using k3 [] .nil, k4⟩

theorem Spec.Opened.trans {d d' : Nat} {es fs : List LogEvent} (h : Opened d es) (h' : Opened d' fs) :
    Opened (d + d') (es ++ fs) := by
  induction h' with
  | zero hb => exact h.append hb
  | succ x h1 h2 ih =>
    rw [← List.append_assoc]
    exact .succ x ih h2

variable [UbEnc P] [UbEnc C] [TotDb D] [MergeEnc P C D]

/-- C45: in every run of the program, with or without core boosting, however it ends, the logger does not panic and prints
all messages asked for, in order. -/
theorem cli_log_run (alg : Alg) (fuel : Nat) (cb : Option CbOptions) (limits : Limits) (cfg : LoggerConfig) :
    ∃ es l, (runAlg D alg fuel cb limits env s.attachLogger).2.io.logger = some es ∧
      CliLogger.run cfg es {} = some l ∧ Nested (CliLogger.endSolve cfg l.stack l.out) ∧
      lineMessages l.out = es.filter cfg.prints := by
  suffices h : ∃ es d, (runAlg D alg fuel cb limits env s.attachLogger).2.io.logger = some es ∧ Opened d es by
    obtain ⟨es, d, h1, h2⟩ := h
    obtain ⟨l, k1, -, k3, k4⟩ := cliLog_opened cfg h2
    exact ⟨es, l, h1, k1, k3, k4⟩
  have hsolve : ∀ (s1 : Slv P C) es d, s1.io.logger = some es → Opened d es →
      ∃ es' d', (alg.solve fuel limits env s1).2.io.logger = some es' ∧ Opened d' es' := by
    intro s1 es d h1 h2
    obtain ⟨es', k1, ⟨d', k2⟩, -⟩ := log_agrees (env := env) (limits := limits) alg fuel h1
    exact ⟨_, _, k1, h2.trans k2⟩
  cases cb with
  | none =>
    obtain ⟨es, d, h1, h2⟩ := hsolve s.attachLogger [] 0 rfl (.zero .nil)
    refine ⟨es, d, ?_, h2⟩
    simp only [runAlg]
    split <;> exact h1
  | some o =>
    have hcb := cbk_coreBoost (D := D) (env := env) fuel o (f0 := s.attachLogger.front)
      (n0 := s.attachLogger.io.stats.nSolveCalls) (lg := true) (nl := False) (fs := []) 0 s.attachLogger
      ⟨rfl, rfl, fun l hl => by
        have : l = [] := by simpa [Slv.attachLogger] using hl.symm
        subst this
        exact ⟨.zero .nil, rfl, by simp, by simp⟩, rfl, False.elim⟩
    have hopen : ∃ es d, (coreBoost D fuel o env s.attachLogger).2.io.logger = some es ∧ Opened d es := by
      unfold wp at hcb
      have fin : ∀ (s' : Slv P C) d, CbI s.attachLogger.front s.attachLogger.io.stats.nSolveCalls true False [] none d s' →
          ∃ es d, s'.io.logger = some es ∧ Opened d es := by
        intro s' d h
        obtain ⟨es, he⟩ := Option.isSome_iff_exists.1 h.has
        exact ⟨es, d, he, (h.log es he).1⟩
      split at hcb
      · rename_i heq
        rw [heq]
        exact fin _ _ hcb
      · rename_i heq
        rw [heq]
        obtain ⟨d, hcb⟩ := hcb
        exact fin _ _ hcb
    simp only [runAlg]
    split
    · exact hopen
    · split
      · obtain ⟨es, d, h1, h2⟩ := hopen
        obtain ⟨es', d', k1, k2⟩ := hsolve _ es d h1 h2
        refine ⟨es', d', ?_, k2⟩
        split <;> exact k1
      · exact hopen

/-! ## C50 -/

/-- One configuration prints whatever the other one prints. -/
theorem config_mono {a b : LogArgs} (h : AsksMore a b) (alg : Alg) :
    (∀ e, (a.config alg).prints e = true → (b.config alg).prints e = true) ∧
    (a.config alg).logRoutines ≤ (b.config alg).logRoutines := by
  have hv := h.verbosity
  have hle : ∀ n, decide (a.verbosity ≥ n) = true → decide (b.verbosity ≥ n) = true := by
    intro n hn
    simp only [ge_iff_le, decide_eq_true_eq] at *
    omega
  refine ⟨fun e he => ?_, ?_⟩
  · cases e with
    | routineStart x => simp [LoggerConfig.prints] at he
    | routineEnd => simp [LoggerConfig.prints] at he
    | candidate c p =>
      simp only [LoggerConfig.prints, LogArgs.config, Bool.or_eq_true] at *
      exact he.imp h.candidates (hle _)
    | oracleCall r =>
      simp only [LoggerConfig.prints, LogArgs.config, Bool.or_eq_true] at *
      exact he.imp h.oracleCalls (hle _)
    | solution =>
      simp only [LoggerConfig.prints, LogArgs.config] at *
      exact h.solutions he
    | nonDominated p =>
      simp only [LoggerConfig.prints, LogArgs.config, Bool.or_eq_true] at *
      exact he.imp h.nonDom (hle _)
    | heurImprovement i x y =>
      simp only [LoggerConfig.prints, LogArgs.config, Bool.or_eq_true] at *
      exact he.imp h.heurImprovements (hle _)
    | fence f =>
      simp only [LoggerConfig.prints, LogArgs.config, Bool.or_eq_true, Bool.and_eq_true] at *
      exact ⟨he.1, he.2.imp h.fence (hle _)⟩
    | ideal p =>
      simp only [LoggerConfig.prints, LogArgs.config, Bool.or_eq_true] at *
      exact he.imp h.boundPoints (hle _)
    | core w l r =>
      simp only [LoggerConfig.prints, LogArgs.config, Bool.or_eq_true] at *
      exact he.imp h.cores (hle _)
    | coreExhaustion a' b' =>
      simp only [LoggerConfig.prints, LogArgs.config, Bool.or_eq_true] at *
      exact he.imp h.cores (hle _)
    | inprocessing x y z rs =>
      simp only [LoggerConfig.prints, LogArgs.config, Bool.or_eq_true] at *
      exact he.imp h.inprocessing (hle _)
  · have := h.routines
    simp only [LogArgs.config]
    omega

/-- C50: asking for more output, by a higher verbosity or with further options, only adds lines. -/
theorem cliLog_mono {a b : LogArgs} (h : AsksMore a b) (alg : Alg) (es : List LogEvent) {l : CliLogger}
    (hl : CliLogger.run (a.config alg) es {} = some l) :
    ∃ l', CliLogger.run (b.config alg) es {} = some l' ∧ l.out.Sublist l'.out := by
  obtain ⟨hp, hr⟩ := config_mono h alg
  generalize a.config alg = ca at *
  generalize b.config alg = cb at *
  suffices key : ∀ es (l1 l2 l : CliLogger), l1.stack = l2.stack → l1.out.Sublist l2.out →
      CliLogger.run ca es l1 = some l → ∃ l', CliLogger.run cb es l2 = some l' ∧ l.out.Sublist l'.out from
    key es {} {} l rfl (List.Sublist.refl _) hl
  intro es
  induction es with
  | nil =>
    intro l1 l2 l h1 h2 h3
    simp only [CliLogger.run, Option.some.injEq] at h3
    subst h3
    exact ⟨l2, rfl, h2⟩
  | cons e es ih =>
    intro l1 l2 l h1 h2 h3
    simp only [CliLogger.run] at h3 ⊢
    cases he : l1.event ca e with
    | none => rw [he] at h3; simp at h3
    | some l1' =>
      rw [he, Option.bind_some] at h3
      suffices hstep : ∃ l2', l2.event cb e = some l2' ∧ l1'.stack = l2'.stack ∧ l1'.out.Sublist l2'.out by
        obtain ⟨l2', k1, k2, k3⟩ := hstep
        rw [k1, Option.bind_some]
        exact ih l1' l2' l k2 k3 h3
      have hadd : ∀ {p q : Prop} [Decidable p] [Decidable q] (x : LogLine), (p → q) →
          (if p then l1.out ++ [x] else l1.out).Sublist (if q then l2.out ++ [x] else l2.out) := by
        intro p q _ _ x hpq
        by_cases hpp : p
        · rw [if_pos hpp, if_pos (hpq hpp)]
          exact h2.append (List.Sublist.refl _)
        · rw [if_neg hpp]
          split
          · exact h2.trans (List.sublist_append_left _ _)
          · exact h2
      by_cases hs : ∃ x, e = .routineStart x
      · obtain ⟨x, rfl⟩ := hs
        simp only [CliLogger.event, Option.some.injEq] at he
        subst he
        refine ⟨_, rfl, by simp [CliLogger.start, h1], ?_⟩
        simp only [CliLogger.start, h1]
        exact hadd _ (by omega)
      · by_cases hen : e = .routineEnd
        · subst hen
          simp only [CliLogger.event, CliLogger.finish] at he ⊢
          cases hst : l1.stack with
          | nil => rw [hst] at he; simp at he
          | cons desc stack =>
            rw [hst] at he
            simp only [Option.some.injEq] at he
            subst he
            rw [← h1, hst]
            exact ⟨_, rfl, rfl, hadd _ (by omega)⟩
        · rw [cliLog_other _ _ _ (fun x hx => hs ⟨x, hx⟩) hen] at he ⊢
          simp only [Option.some.injEq] at he
          subst he
          refine ⟨_, rfl, ?_, ?_⟩
          · split <;> split <;> exact h1
          · have := hadd (p := ca.prints e = true) (q := cb.prints e = true) (.message e) (hp e)
            split <;> split <;> simp_all

/-- C50: the lines printed for a routine are those the options ask for: a message is printed exactly if it is asked for by
its option or by the verbosity, start and end of the routine if it is less deep than the option says or than twice the
verbosity. -/
theorem cliLog_asked (a : LogArgs) (alg : Alg) {mid : List LogEvent} (h : Balanced mid) (x : String) (l : CliLogger) :
    ∃ ls, CliLogger.run (a.config alg) (.routineStart x :: mid ++ [.routineEnd]) l =
        some ⟨l.stack, l.out ++ if l.stack.length < a.logRoutines ∨ l.stack.length < 2 * a.verbosity
          then .routineStart x :: ls ++ [.routineEnd x] else ls⟩ ∧
      ∀ e, e ∈ lineMessages ls ↔ e ∈ mid ∧ AsksFor a alg e := by
  obtain ⟨ls, i1, -, i3, -⟩ := cliLog_balanced (a.config alg) h (l.start (a.config alg) x)
  refine ⟨ls, ?_, fun e => ?_⟩
  · rw [cliLog_append]
    simp only [CliLogger.run, CliLogger.event, Option.bind_some, i1]
    simp only [CliLogger.start, CliLogger.finish, List.length_cons]
    by_cases hd : l.stack.length < a.logRoutines ∨ l.stack.length < 2 * a.verbosity
    · have hc : l.stack.length < (a.config alg).logRoutines := by simp only [LogArgs.config]; omega
      rw [if_pos hc, if_pos (by omega), if_pos hd]
      simp [CliLogger.run]
    · have hc : ¬ l.stack.length < (a.config alg).logRoutines := by simp only [LogArgs.config]; omega
      rw [if_neg hc, if_neg (by omega), if_neg hd]
      simp [CliLogger.run]
  · rw [i3, List.mem_filter]
    refine and_congr_right fun _ => ?_
    constructor
    · intro he
      cases e with
      | routineStart x => simp [LoggerConfig.prints] at he
      | routineEnd => simp [LoggerConfig.prints] at he
      | candidate => simp [LoggerConfig.prints, LogArgs.config] at he; exact .candidate _ _ he
      | oracleCall => simp [LoggerConfig.prints, LogArgs.config] at he; exact .oracleCall _ he
      | solution => exact .solution he
      | nonDominated => simp [LoggerConfig.prints, LogArgs.config] at he; exact .nonDominated _ he
      | heurImprovement => simp [LoggerConfig.prints, LogArgs.config] at he; exact .heurImprovement _ _ _ he
      | fence => simp [LoggerConfig.prints, LogArgs.config] at he; exact .fence _ he.1 he.2
      | ideal => simp [LoggerConfig.prints, LogArgs.config] at he; exact .ideal _ he
      | core => simp [LoggerConfig.prints, LogArgs.config] at he; exact .core _ _ _ he
      | coreExhaustion => simp [LoggerConfig.prints, LogArgs.config] at he; exact .coreExhaustion _ _ he
      | inprocessing => simp [LoggerConfig.prints, LogArgs.config] at he; exact .inprocessing _ _ _ _ he
    · intro he
      cases he with
      | fence f h1 h2 => subst h1; simpa [LoggerConfig.prints, LogArgs.config] using h2
      | _ => simpa [LoggerConfig.prints, LogArgs.config]

/-- Asking for candidates as well. -/
example : AsksMore { verbosity := 1 } { verbosity := 1, logCandidates := true } := by
  constructor <;> simp

end Logger

end Scuttle
