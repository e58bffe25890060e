import Verif.Model.CbCert
import Verif.Props.Inprocess

/-!
# C60: core boosting with proof logging
-/

namespace Scuttle

variable {P C D : Type} [UbEnc P] [UbEnc C] [TotDb D] [MergeEnc P C D]

section Run

variable {α β : Type} {env : Env} {s : Slv P C}

omit [UbEnc P] [UbEnc C] in
theorem bind_ok {c : M P C α} {f : α → M P C β} {b : β} (h : (M.bind c f env s).1 = .ok b) :
    ∃ a s', c env s = (.ok a, s') ∧ (f a env s').1 = .ok b := by
  unfold M.bind at h
  split at h
  · next a s' hc => exact ⟨a, s', hc, h⟩
  · cases h

omit [UbEnc P] [UbEnc C] in
theorem bind_eq {c : M P C α} {f : α → M P C β} {a : α} {s' : Slv P C} (h : c env s = (.ok a, s')) :
    M.bind c f env s = f a env s' := by
  unfold M.bind
  rw [h]

end Run

omit [UbEnc P] [UbEnc C] in
theorem logEvent_stats (e : LogEvent) (env : Env) (s : Slv P C) : (logEvent e env s).2.io.stats = s.io.stats := by
  unfold logEvent
  split
  · rfl
  · split <;> rfl

omit [MergeEnc P C D] in
theorem coreBoostLoop_length {env : Env} {fuel : Nat} : ∀ (n i : Nat) (acc : List (Reform × D)) (s : Slv P C)
    (r : List (Reform × D)), (coreBoostLoop D fuel n i acc env s).1 = .ok (r, false) → r.length = acc.length + n := by
  intro n
  induction n with
  | zero => intro i acc s r h; cases h; rfl
  | succ n ih =>
    intro i acc s r h
    obtain ⟨_, _, -, h⟩ := bind_ok h
    obtain ⟨o, _, -, h⟩ := bind_ok h
    cases o with
    | none => cases h
    | some q =>
      obtain ⟨reform, d⟩ := q
      obtain ⟨_, _, -, h⟩ := bind_ok h
      have := ih _ _ _ _ h
      simp only [List.length_append, List.length_singleton] at this
      omega

omit [MergeEnc P C D] in
/-- If core boosting of the kernel does not find the instance unsatisfiable, there is a reformulation for each
objective. -/
theorem kernelCoreBoost_length {env : Env} {fuel : Nat} {s s' : Slv P C} {res : List (Reform × D)}
    (h : kernelCoreBoost D fuel env s = (.ok (some res), s')) : res.length = s.io.stats.nObjs := by
  have h : (kernelCoreBoost D fuel env s).1 = .ok (some res) := by rw [h]
  obtain ⟨u, s₁, h1, h⟩ := bind_ok h
  obtain ⟨s₂, s₂', h2, h⟩ := bind_ok h
  cases h2
  obtain ⟨⟨r, b⟩, s₃, h3, h⟩ := bind_ok h
  obtain ⟨_, _, -, h⟩ := bind_ok h
  obtain ⟨_, _, -, h⟩ := bind_ok h
  cases b with
  | true => cases h
  | false =>
    cases h
    rw [coreBoostLoop_length _ _ _ _ _ (by rw [h3])]
    have := logEvent_stats (P := P) (C := C) (.routineStart "core boost") env s
    unfold logRoutineStart at h1
    rw [h1] at this
    simp [← this]

/-- Without reset nothing differs. -/
theorem replaceEncsCert_keep (rebase : Bool) (rs : List (Reform × D)) : ∀ i,
    replaceEncsCert (P := P) (C := C) rebase false i rs = replaceEncs rebase false i rs := by
  induction rs with
  | nil => intro i; rfl
  | cons r rs ih =>
    intro i
    obtain ⟨reform, d⟩ := r
    simp only [replaceEncsCert, replaceEncs, ih, Bool.false_eq_true, if_false]
    rfl

/-- C60: with a proof, core boosting without reset and inprocessing is what is modelled without proof. -/
theorem coreBoostCert_same_partial (fuel : Nat) {opts : CbOptions} (h : opts.after ≠ .reset) :
    coreBoostCert (P := P) (C := C) D fuel opts = coreBoost D fuel opts := by
  unfold coreBoostCert coreBoost
  simp only [h, decide_false, replaceEncsCert_keep, if_false]
  rfl

/-- C60: core boosting that is to be followed by a reset and succeeds without proof panics in a debug build with a proof,
for every instance with an objective. -/
theorem coreBoostCert_reset_panics {env : Env} {fuel : Nat} {opts : CbOptions} {s : Slv P C} (hd : env.debug = true)
    (ha : opts.after = .reset) (hn : 0 < s.io.stats.nObjs) (h : (coreBoost D fuel opts env s).1 = .ok true) :
    (coreBoostCert D fuel opts env s).1 = .error .panic := by
  obtain ⟨s₁, s₁', h1, h⟩ := bind_ok h
  cases h1
  unfold coreBoostCert
  show (M.bind getS _ env s).1 = _
  rw [bind_eq (a := s) (s' := s) rfl]
  beta_reduce at h ⊢
  by_cases hc : s.io.stats.nSolveCalls ≠ 0
  · rw [if_pos hc] at h; cases h
  rw [if_neg hc] at h ⊢
  obtain ⟨r, s₂, h2, h⟩ := bind_ok h
  show (M.bind _ _ env s).1 = _
  rw [bind_eq h2]
  cases r with
  | none => cases h
  | some res =>
    have hl := kernelCoreBoost_length h2
    obtain ⟨_, s₃, h3, h⟩ := bind_ok h
    show (M.bind _ _ env s₂).1 = _
    rw [bind_eq h3]
    obtain ⟨_, s₄, h4, h⟩ := bind_ok h
    show (M.bind _ _ env s₃).1 = _
    rw [bind_eq h4]
    obtain ⟨_, s₅, h5, h⟩ := bind_ok h
    show (M.bind _ _ env s₄).1 = _
    rw [bind_eq h5]
    cases res with
    | nil => simp at hl; omega
    | cons r rs =>
      obtain ⟨reform, d⟩ := r
      simp [ha, replaceEncsCert, Bind.bind, M.bind, dbg, hd]

/-- C60: core boosting with inprocessing that succeeds without proof panics in a debug build with a proof. -/
theorem coreBoostInproCert_panics [InproDb D] {alg : Alg} {mp : MaxPre} {env : Env} {fuel : Nat} {s : Slv P C}
    (hd : env.debug = true) (h : (coreBoostInpro D alg mp fuel env s).1 = .ok true) :
    (coreBoostInproCert D alg mp fuel env s).1 = .error .panic := by
  obtain ⟨s₁, s₁', h1, h⟩ := bind_ok h
  cases h1
  unfold coreBoostInproCert
  show (M.bind getS _ env s).1 = _
  rw [bind_eq (a := s) (s' := s) rfl]
  beta_reduce at h ⊢
  by_cases hc : s.io.stats.nSolveCalls ≠ 0
  · rw [if_pos hc] at h; cases h
  rw [if_neg hc] at h ⊢
  obtain ⟨r, s₂, h2, h⟩ := bind_ok h
  show (M.bind _ _ env s).1 = _
  rw [bind_eq h2]
  cases r with
  | none => cases h
  | some res =>
    obtain ⟨_, s₃, h3, h⟩ := bind_ok h
    show (M.bind _ _ env s₂).1 = _
    rw [bind_eq h3]
    simp [Bind.bind, M.bind, dbg, hd]

/-- Core boosting of the example, without and with proof. -/
def Example.boostBoth (env : Env) (alg : Alg) (cb : CbOptions) : Option (Except Stop Bool) × Option (Except Stop Bool) :=
  let s := alg.new (P := RefTot.RefTree 1) (C := RefTot.RefTree 0) Example.inst defaultBlockingClause { storeCnf := true }
  (s.map fun s => (coreBoost RefTot 50 cb env s).1, s.map fun s => (coreBoostCert RefTot 50 cb env s).1)

/-- Core boosting with inprocessing of the example, without and with proof. -/
def Example.inproBoth (env : Env) (alg : Alg) (mp : MaxPre) : Option (Except Stop Bool) × Option (Except Stop Bool) :=
  let s := alg.new (P := RefTot.RefTree 1) (C := RefTot.RefTree 0) Example.inst defaultBlockingClause { storeCnf := true }
  (s.map fun s => (coreBoostInpro RefTot alg mp 50 env s).1, s.map fun s => (coreBoostInproCert RefTot alg mp 50 env s).1)

example : Example.endsWith (.ok true) (Example.boostBoth (refEnv true) .pMinimal { after := .reset }).1 ∧
    Example.endsWith (.error .panic) (Example.boostBoth (refEnv true) .pMinimal { after := .reset }).2 ∧
    Example.endsWith (.ok true) (Example.boostBoth (refEnv true) .pMinimal {}).2 ∧
    Example.endsWith (.ok true) (Example.inproBoth (refEnv true) .pMinimal Example.idMp).1 ∧
    Example.endsWith (.error .panic) (Example.inproBoth (refEnv true) .pMinimal Example.idMp).2 := by decide +kernel

end Scuttle
