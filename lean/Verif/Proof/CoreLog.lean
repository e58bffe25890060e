import Verif.SpecCoreLog
import Verif.Proof.CbFrame
import Verif.Proof.CoreBoost

/-!
# The messages about cores add up to the lower bound
-/

set_option linter.unusedSectionVars false

namespace Scuttle

open Spec
open TotSem (Node cnt)

variable {P C D α β : Type} [UbEnc P] [UbEnc C] [TotDb D] [MergeEnc P C D] {env : Env} {s : Slv P C} {xs ys : List Nat}

/-- If there is a log, the messages about cores in it are fine, and the sums are the ones given. -/
def LK (xs : List Nat) (s : Slv P C) : Prop := LogHas (fun l => l.foldl ollStep [] = xs ∧ ∀ e ∈ l, CoreFine e) s

/-- A message that is not about cores and does not start a run of OLL. -/
def LogEvent.Neutral (e : LogEvent) : Prop := e ≠ .routineStart "oll" ∧ raised e = 0 ∧ CoreFine e

theorem coreFine_snoc {e : LogEvent} {l : List LogEvent} (he : CoreFine e) (h : ∀ e ∈ l, CoreFine e) :
    ∀ e' ∈ l ++ [e], CoreFine e' := by
  intro e' h'
  rcases List.mem_append.1 h' with h' | h'
  · exact h e' h'
  · rw [List.mem_singleton.1 h']; exact he

theorem ollStep_neutral {e : LogEvent} (he : e.Neutral) (acc : List Nat) : ollStep acc e = acc := by
  unfold ollStep
  rw [if_neg he.1]
  cases acc with
  | nil => rfl
  | cons x xs => simp [he.2.1]

theorem lk_neutral {e : LogEvent} (he : e.Neutral) (l : List LogEvent)
    (h : l.foldl ollStep [] = xs ∧ ∀ e ∈ l, CoreFine e) :
    (l ++ [e]).foldl ollStep [] = xs ∧ ∀ e' ∈ l ++ [e], CoreFine e' := by
  refine ⟨?_, coreFine_snoc he.2.2 h.2⟩
  rw [List.foldl_append, h.1]
  exact ollStep_neutral he xs

/-- A computation that logs nothing about cores. -/
def NK (env : Env) (xs : List Nat) (c : M P C α) : Prop := ∀ s, LK xs s → wp env c (fun _ => LK xs) (fun _ => LK xs) s

theorem nk_pure (a : α) : NK (P := P) (C := C) env xs (M.pure a) := fun _ h => h

theorem nk_bind {c : M P C α} {f : α → M P C β} (hc : NK env xs c) (hf : ∀ a, NK env xs (f a)) :
    NK env xs (c >>= f) := by
  intro s h
  rw [wp_bind]
  exact wp_mono (hc s h) (fun a s' h' => hf a s' h') (fun _ _ h => h)

theorem nk_getS : NK (P := P) (C := C) env xs getS := fun _ h => h
theorem nk_isDebug : NK (P := P) (C := C) env xs isDebug := fun _ h => h
theorem nk_stop (e : Stop) : NK (P := P) (C := C) (α := α) env xs (stop e) := fun _ h => h

theorem nk_modifyS {f : Slv P C → Slv P C} (h3 : ∀ s, (f s).io.logger = s.io.logger) : NK env xs (modifyS f) := by
  intro s h
  rw [wp_modifyS]
  exact h.congr (h3 s)

theorem nk_dbg (b : Bool) : NK (P := P) (C := C) env xs (dbg b) := by
  intro s h
  rw [wp_dbg_iff]
  split <;> exact h

theorem nk_unwrap (o : Option α) : NK (P := P) (C := C) env xs (unwrap o) := by
  cases o with
  | none => exact nk_stop _
  | some a => exact nk_pure a

theorem nk_check : NK (P := P) (C := C) env xs checkTermination := by
  intro s h
  refine wpio_check fun s' hs' => ?_
  subst hs'
  exact ⟨fun _ => h, fun _ => h⟩

theorem nk_logEvent {e : LogEvent} (he : e.Neutral) : NK (P := P) (C := C) env xs (logEvent e) :=
  fun _ h => LogHas.event h (lk_neutral he) (fun _ h => h)

theorem nk_start {x : String} (hx : x ≠ "oll") : NK (P := P) (C := C) env xs (logRoutineStart x) :=
  nk_logEvent ⟨by simp [hx], rfl, trivial⟩

theorem nk_end : NK (P := P) (C := C) env xs logRoutineEnd := nk_logEvent ⟨by simp, rfl, trivial⟩

theorem nk_oracleSolve (as : List Lit) : NK (P := P) (C := C) env xs (oracleSolve as) := by
  intro s h
  refine wpio_oracleSolve fun r s' h1 h2 => h.congr (by rw [h2])

theorem nk_logOracleCall (r : SolverResult) : NK (P := P) (C := C) env xs (logOracleCall r) := by
  intro s h
  rw [logOracleCall_eq]
  exact LogHas.charge h (lk_neutral ⟨by simp, rfl, trivial⟩) (fun _ h => h) (fun _ h => h)

theorem nk_solveAssumps (as : List Lit) : NK (P := P) (C := C) env xs (solveAssumps as) :=
  nk_bind (nk_start (by decide)) fun _ => nk_bind (nk_oracleSolve as) fun _ => nk_bind nk_end fun _ =>
    nk_bind nk_check fun _ => nk_bind (nk_logOracleCall _) fun _ => nk_pure _

theorem nk_oracleCore : NK (P := P) (C := C) env xs oracleCore := by
  refine nk_bind nk_getS fun s => ?_
  split
  · exact nk_pure _
  · exact nk_stop _

theorem nk_oracleSolution : NK (P := P) (C := C) env xs oracleSolution := by
  refine nk_bind nk_getS fun s => nk_bind (nk_unwrap _) fun v => ?_
  split
  · exact nk_pure _
  · exact nk_stop _

theorem nk_loop {body : α → M P C (α ⊕ β)} (hb : ∀ a, NK env xs (body a)) (fuel : Nat) (a : α) :
    NK env xs (loopM body fuel a) := by
  intro s h
  refine wp_loop_inv (fun _ => LK xs) fuel body a (fun a s h => ?_) (fun _ _ h => h) h
  refine wp_mono (hb a s h) (fun r s' h' => ?_) (fun _ _ h => h)
  cases r <;> exact h'

theorem nk_ollPrepare (i : Inactives) (rest : List Lit) : NK (P := P) (C := C) env xs (ollPrepare i rest) := by
  cases i with
  | weighted m => exact nk_bind (nk_unwrap _) fun _ => nk_pure _
  | unweighted lits active => exact nk_pure _
  | constant => exact nk_stop _

theorem nk_setConflLimit (b : Bool) : NK (P := P) (C := C) env xs (setConflLimit b) := nk_modifyS fun _ => rfl

theorem nk_buildOutput (d : D) (root oidx : Nat) : NK (P := P) (C := C) env xs (buildOutput d root oidx) :=
  nk_bind nk_getS fun _ => nk_bind (nk_modifyS fun _ => rfl) fun _ => nk_pure _

theorem nk_exhaustLoop (root : Nat) (base : List Lit) (g bound : Nat) (olit : Lit) (d : D) :
    NK (P := P) (C := C) env xs (exhaustLoop root base g bound olit d) := by
  induction g generalizing bound olit d with
  | zero => exact nk_pure _
  | succ g ih =>
    refine nk_bind (nk_buildOutput _ _ _) fun p => ?_
    obtain ⟨olit', d'⟩ := p
    refine nk_bind (nk_setConflLimit _) fun _ => nk_bind (nk_solveAssumps _) fun r => ?_
    split
    · exact nk_pure _
    · exact ih _ _ _

theorem nk_exhaustCore (root : Nat) (base : List Lit) (d : D) :
    NK (P := P) (C := C) env xs (exhaustCore root base d) := by
  refine nk_bind nk_getS fun s => ?_
  split
  · refine nk_bind (nk_buildOutput _ _ _) fun p => ?_
    exact nk_pure _
  · refine nk_bind (nk_start (by decide)) fun _ => nk_bind (nk_dbg _) fun _ => nk_bind (nk_exhaustLoop _ _ _ _ _ _) fun r =>
      nk_bind (nk_setConflLimit _) fun _ => nk_bind nk_end fun _ => nk_pure _

theorem nk_minimizeLoop (base zs core : List Lit) : NK (P := P) (C := C) env xs (minimizeLoop base zs core) := by
  induction zs generalizing core with
  | nil => exact nk_pure _
  | cons x zs ih =>
    refine nk_bind (nk_solveAssumps _) fun r => ?_
    split
    · exact nk_bind nk_oracleCore fun c => ih _
    · exact ih _

theorem nk_minimizeCore (core base : List Lit) : NK (P := P) (C := C) env xs (minimizeCore core base) := by
  refine nk_bind nk_getS fun s => ?_
  split
  · exact nk_pure _
  · split
    · exact nk_pure _
    · exact nk_bind (nk_start (by decide)) fun _ => nk_bind (nk_setConflLimit _) fun _ =>
        nk_bind (nk_minimizeLoop _ _ _) fun r => nk_bind (nk_setConflLimit _) fun _ => nk_bind nk_end fun _ => nk_pure _

theorem nk_trimCore (fuel : Nat) (core base : List Lit) : NK (P := P) (C := C) env xs (trimCore fuel core base) := by
  refine nk_bind nk_getS fun s => ?_
  split
  · exact nk_pure _
  · split
    · exact nk_pure _
    · refine nk_bind (nk_start (by decide)) fun _ => nk_bind (nk_loop (fun c => ?_) _ _) fun _ => nk_bind nk_end fun _ => nk_pure _
      unfold trimBody
      split
      · refine nk_bind (nk_solveAssumps _) fun r => nk_bind (nk_dbg _) fun _ => nk_bind nk_oracleCore fun c => ?_
        simp only
        split <;> exact nk_pure _
      · exact nk_pure _

theorem nk_reserveOutputs (ps : List (Lit × ReformData)) (d : D) :
    NK (P := P) (C := C) env xs (reserveOutputs ps d) := by
  induction ps generalizing d with
  | nil => exact nk_pure _
  | cons p ps ih =>
    exact nk_bind nk_getS fun s => nk_bind (nk_modifyS fun _ => rfl) fun _ => ih _

/-! ## After core-guided search -/

theorem nk_mergeLoop (refs : List (Lit × ReformData)) (rebase : Bool) (ps : List (Lit × Nat)) (cons : List NodeCon)
    (d : D) : NK (P := P) (C := C) env xs (mergeLoop refs rebase ps cons d) := by
  induction ps generalizing cons d with
  | nil => exact nk_pure _
  | cons p ps ih =>
    refine nk_bind ?_ fun q => ?_
    · unfold litCons
      split
      · refine nk_bind (nk_dbg _) fun _ => nk_bind (nk_dbg _) fun _ => ?_
        split
        · exact nk_pure _
        · split <;> exact nk_pure _
      · exact nk_pure _
    · exact ih _ _

theorem nk_mergeReform (reform : Reform) (d : D) (rebase : Bool) :
    NK (P := P) (C := C) env xs (mergeReform reform d rebase) := by
  unfold mergeReform
  split
  · exact nk_pure _
  · refine nk_bind (nk_mergeLoop _ _ _ _ _) fun p => ?_
    obtain ⟨cons, d⟩ := p
    unfold mergeCons
    simp only
    split
    · split
      · exact nk_pure _
      · exact nk_bind (nk_dbg _) fun _ => nk_pure _
    · exact nk_pure _

theorem nk_replaceEncs (rebase reset : Bool) (i : Nat) (rs : List (Reform × D)) :
    NK (P := P) (C := C) env xs (replaceEncs rebase reset i rs) := by
  induction rs generalizing i with
  | nil => exact nk_pure _
  | cons r rs ih =>
    obtain ⟨reform, d⟩ := r
    refine nk_bind nk_getS fun s => nk_bind (nk_unwrap _) fun o => ?_
    have hrest : NK (P := P) (C := C) env xs (do checkTermination; replaceEncs rebase reset (i + 1) rs) :=
      nk_bind nk_check fun _ => ih _
    simp only
    split
    · exact nk_bind (nk_pure _) fun _ => hrest
    · exact nk_bind (nk_mergeReform _ _ _) fun e => nk_bind nk_getS fun _ => nk_bind (nk_unwrap _) fun _ =>
        nk_bind (nk_modifyS fun _ => rfl) fun _ => hrest

theorem nk_resetOracle (b : Bool) : NK (P := P) (C := C) env xs (resetOracle b) := by
  refine nk_bind nk_getS fun s => ?_
  split
  · refine nk_bind (nk_start (by decide)) fun _ => ?_
    split
    · exact nk_bind (nk_pure _) fun _ => nk_bind (nk_unwrap _) fun _ => nk_bind (nk_modifyS fun _ => rfl) fun _ => nk_end
    · exact nk_bind (nk_unwrap _) fun _ => nk_bind (nk_pure _) fun _ => nk_bind (nk_unwrap _) fun _ =>
        nk_bind (nk_modifyS fun _ => rfl) fun _ => nk_end
  · exact nk_stop _

theorem nk_afterBoost (cb : CbOptions) (res : List (Reform × D)) :
    NK (P := P) (C := C) env xs (do
      checkTermination
      (if cb.after = .reset then do
        resetOracle true
        checkTermination
      else M.pure ())
      logRoutineStart "merge encodings"
      replaceEncs cb.rebase (cb.after = .reset) 0 res
      logRoutineEnd
      M.pure true) := by
  refine nk_bind nk_check fun _ => ?_
  have hrest : NK (P := P) (C := C) env xs (do
      logRoutineStart "merge encodings"
      replaceEncs cb.rebase (cb.after = .reset) 0 res
      logRoutineEnd
      M.pure true) := nk_bind (nk_start (by decide)) fun _ => nk_bind (nk_replaceEncs _ _ _ _) fun _ =>
        nk_bind nk_end fun _ => nk_pure _
  split
  · exact nk_bind (nk_bind (nk_resetOracle _) fun _ => nk_check) fun _ => hrest
  · exact nk_bind (nk_pure _) fun _ => hrest

/-! ## Computations that only stop with a panic -/

/-- A computation that logs nothing about cores and only stops early with a panic. -/
def PK (env : Env) (xs : List Nat) (c : M P C α) : Prop :=
  ∀ s, LK xs s → wp env c (fun _ => LK xs) (fun e _ => e = .panic) s

theorem pk_pure (a : α) : PK (P := P) (C := C) env xs (M.pure a) := fun _ h => h

theorem pk_bind {c : M P C α} {f : α → M P C β} (hc : PK env xs c) (hf : ∀ a, PK env xs (f a)) :
    PK env xs (c >>= f) := by
  intro s h
  rw [wp_bind]
  exact wp_mono (hc s h) (fun a s' h' => hf a s' h') (fun _ _ h => h)

theorem pk_panic : PK (P := P) (C := C) (α := α) env xs (stop .panic) := fun _ _ => rfl

theorem pk_dbg (b : Bool) : PK (P := P) (C := C) env xs (dbg b) := by
  intro s h
  rw [wp_dbg_iff]
  split
  · rfl
  · exact h

theorem pk_insert (i : Inactives) (l : Lit) (w : Nat) : PK (P := P) (C := C) env xs (i.insert l w) := by
  cases i with
  | weighted m => exact pk_pure _
  | unweighted lits active => exact pk_bind (pk_dbg _) fun _ => pk_pure _
  | constant => exact pk_panic

theorem pk_relax (i : Inactives) (l : Lit) (w : Nat) : PK (P := P) (C := C) env xs (i.relax l w) := by
  cases i with
  | weighted m =>
    unfold Inactives.relax
    simp only
    split
    · split
      · exact pk_panic
      · exact pk_pure _
    · exact pk_panic
  | unweighted lits active => exact pk_bind (pk_dbg _) fun _ => pk_pure _
  | constant => exact pk_panic

theorem pk_buildOutput (d : D) (root oidx : Nat) : PK (P := P) (C := C) env xs (buildOutput d root oidx) :=
  fun _ h => LogHas.congr h rfl

theorem pk_relaxLit (cw : Nat) (st : RelaxState D) (olit : Lit) : PK (P := P) (C := C) env xs (relaxLit cw st olit) := by
  refine pk_bind (pk_relax _ _ _) fun p => ?_
  obtain ⟨i, w⟩ := p
  simp only
  split
  · split
    · exact pk_pure _
    · split
      · exact pk_pure _
      · refine pk_bind (pk_buildOutput _ _ _) fun q => ?_
        obtain ⟨new, db⟩ := q
        exact pk_bind (pk_insert _ _ _) fun _ => pk_pure _
  · exact pk_pure _

theorem pk_relaxLoop (cw : Nat) (ls : List Lit) (st : RelaxState D) : PK (P := P) (C := C) env xs (relaxLoop cw ls st) := by
  induction ls generalizing st with
  | nil => exact pk_pure _
  | cons l ls ih => exact pk_bind (pk_relaxLit _ _ _) fun st => ih st

/-! ## The search -/

variable [LawfulUbEnc P] [LawfulUbEnc C] [LawfulTotDb D] {pb : Pb} {o : Objective} {n N fuel : Nat} {d : D}

/-- How the log may be if the search stops early. -/
def LX (pb : Pb) (o : Objective) (xs : List Nat) (e : Stop) (s : Slv P C) : Prop :=
  e = .panic ∨ LK xs s ∨ ∃ y, (∀ t, pb.Sol t → y ≤ icost o t) ∧ LK (y :: xs) s

theorem LX.of {y : Nat} {e : Stop} (hy : ∀ t, pb.Sol t → y ≤ icost o t) (h : LK (y :: xs) s) : LX pb o xs e s :=
  .inr (.inr ⟨y, hy, h⟩)

theorem LK.raise {y z : Nat} {ev : LogEvent} (hev : ev ≠ .routineStart "oll") (hz : z = y + raised ev) (hf : CoreFine ev)
    (h : LK (y :: xs) s) : wp env (logEvent ev) (fun _ => LK (z :: xs)) (fun _ => LK (y :: xs)) s := by
  refine LogHas.event h (fun l hl => ⟨?_, coreFine_snoc hf hl.2⟩) (fun _ h => h)
  rw [List.foldl_append, hl.1]
  simp only [List.foldl_cons, List.foldl_nil, ollStep, if_neg hev]
  rw [hz]

theorem LK.begin (h : LK xs s) : wp env (logRoutineStart "oll") (fun _ => LK (0 :: xs)) (fun _ => LK xs) s := by
  refine LogHas.event h (fun l hl => ⟨?_, coreFine_snoc trivial hl.2⟩) (fun _ h => h)
  rw [List.foldl_append, hl.1]
  simp [ollStep]

theorem OInv.offset_le {st : OllState D} {U : List (List NodeCon × Nat)} (h : OInv pb env n o st U s) (t : Asg)
    (ht : pb.Sol t) : st.reform.offset ≤ icost o t := by
  rw [h.ref.ident t ht]; omega

theorem lk_handleCore (orc : OracleOK env) (nd : NoDupCores env)
    (hob : ∀ l ∈ objLits o, l.var < pb.n0) (hfit : ∀ t, pb.Sol t → icost o t ≤ usizeMax) (hN : maxCost o ≤ N)
    (hF : ∃ t, pb.Sol t)
    {st : OllState D} {core : List Lit} (h : OInv pb env n o st (st.cores.map (sliceOf st.cons)) s)
    (hc : CoreFor s core)
    (hk : ∀ l ∈ core, ∃ w, 0 < w ∧ (l, w) ∈ st.reform.inactives.wts) (hl : LK (st.reform.offset :: xs) s) :
    wp env (handleCore fuel [] st core) (fun st' s' => LK (st'.reform.offset :: xs) s') (LX pb o xs) s := by
  have hlow := h.offset_le
  unfold handleCore
  rw [wp_bind]
  refine wp_both (wp_minimizeCore (fuel := fuel) (N := N) (pb := pb) orc nd core h.lim h.io hc (.self h.cg h.lim))
    (wp_mono (nk_minimizeCore core [] s hl) ?_ (fun _ _ h _ => .of hlow h))
  rintro core1 s1 hl1 ⟨h1, hio1, hc1, hsub1⟩
  rw [wp_bind]
  refine wp_both (wp_trimCore (fuel := fuel) (N := N) (pb := pb) orc nd core1 (by rw [h1.lim]; exact h.lim) hio1 (hc1.same h1) ?_
    (.self (h.cg.same h1) (by rw [h1.lim]; exact h.lim)))
    (wp_mono (nk_trimCore fuel core1 [] s1 hl1) ?_ (fun _ _ h _ => .of hlow h))
  · intro hs
    refine Nat.le_trans (length_le_wsum h.ref.keys hc1.nodup fun l hl => hk l (hsub1 l hl)) ?_
    have := h.ref.total hs
    omega
  rintro core2 s2 hl2 ⟨h2, hio2, hc2, hsub2⟩
  have hk2 : ∀ l ∈ core2, ∃ w, 0 < w ∧ (l, w) ∈ st.reform.inactives.wts := fun l hl => hk l (hsub1 l (hsub2 l hl))
  have himp : ∀ m, cnfEval m s.k.db = true → clauseEval m core2 = true := by
    have := hc2.implied
    rw [h1.db] at this
    exact this
  obtain ⟨cw, hcw, hpos, hone, hcore⟩ := coreWeight_spec h.ones.good h.ref.keys core2 hk2
  have hoff : ∀ t, pb.Sol t → st.reform.offset + cw ≤ icost o t := by
    intro t ht
    obtain ⟨l, hl, hv⟩ := h.cg.core_true hob h.ref himp hk2 ht
    obtain ⟨w, hw, hm⟩ := hcore l hl
    have e := h.ref.ident t ht
    have := wsum_pos (f := litV st.db st.reform.refs t) hm
    rw [hv] at this
    omega
  rw [wp_bind, hcw, wp_unwrap_some, wp_bind, wp_isDebug, wp_bind]
  obtain ⟨t, ht⟩ := hF
  cases hadd : addUsize env.debug st.reform.offset cw with
  | none =>
    rw [wp_unwrap_none]
    exact .inl rfl
  | some off' =>
  rw [wp_unwrap_some]
  have hoff' : off' = st.reform.offset + cw := addUsize_some hadd (Nat.le_trans (hoff t ht) (hfit t ht))
  have hne : 0 < core2.length := by
    obtain ⟨l, hl, -⟩ := h.cg.core_true hob h.ref himp hk2 ht
    exact List.length_pos_of_mem hl
  have hle : core2.length ≤ core.length := nodup_length_le hc2.nodup fun l hl => hsub1 l (hsub2 l hl)
  rw [wp_bind]
  refine wp_mono (LK.raise (z := off') (by simp) hoff' ⟨hpos, hne, hle⟩ hl2) (fun _ s3 hl3 => ?_) (fun _ _ h => .of hlow h)
  rw [wp_bind]
  refine wp_mono (pk_relaxLoop _ _ _ s3 hl3) (fun r s4 hl4 => ?_) (fun _ _ h => .inl h)
  rw [wp_bind]
  refine wp_mono (pk_dbg _ s4 hl4) (fun _ s5 hl5 => ?_) (fun _ _ h => .inl h)
  simp only
  split <;> exact hl5

theorem lk_reformCore (wf : pb.WF) (orc : OracleOK env)
    (hfit : ∀ t, pb.Sol t → icost o t ≤ usizeMax) (hF : ∃ t, pb.Sol t)
    {U : List (List NodeCon × Nat)} {st : OllState D} {c : CoreData} (h : OInv pb env n o st (sliceOf st.cons c :: U) s)
    (hsl : c.idx + c.len ≤ st.cons.length) (hl : LK (st.reform.offset :: xs) s) :
    wp env (reformCore [] st c) (fun st' s' => LK (st'.reform.offset :: xs) s') (LX pb o xs) s := by
  have hlow := h.offset_le
  unfold reformCore
  rw [wp_bind, if_pos hsl, wp_unwrap_some]
  have hsv : sliceOf st.cons c = ((st.cons.drop c.idx).take c.len, c.weight) := rfl
  rw [hsv] at h
  generalize (st.cons.drop c.idx).take c.len = cons at h ⊢
  obtain ⟨c1, c2, c3, c4⟩ := h.ref.cores (cons, c.weight) (by simp)
  simp only at c1 c2 c3 c4
  have hcons : ∀ x ∈ cons, Node st.db x.id ∧ x.weight = 1 ∧ 0 < conLen st.db x := fun x hx =>
    ⟨(c3 x hx).node, (c3 x hx).weight, by rw [(c3 x hx).len]; omega⟩
  obtain ⟨k1, k2⟩ := h.cg.merge cons
  have m1 := LawfulTotDb.merge_inner st.db cons c1
  have m3 := fun t => LawfulTotDb.merge_cnt st.db cons t c1 hcons
  have m4 := LawfulTotDb.merge_len st.db cons c1 hcons
  rw [sum_conLen c3] at m4
  generalize TotDb.merge st.db cons = mr at k1 k2 m1 m3 m4
  obtain ⟨d1, root⟩ := mr
  simp only at k1 k2 m1 m3 m4 ⊢
  have hrn := LawfulTotDb.inner_node _ _ m1
  rw [wp_bind]
  refine wp_both (wp_exhaustCore (fuel := 0) (N := 0) wf orc k1 h.lim h.io hrn (by rw [m4]; exact c1) ?_ (.self k1 h.lim))
    (wp_mono (nk_exhaustCore root [] d1 s hl) ?_ (fun _ _ h _ => .of hlow h))
  · intro t ht; rw [m3]; exact c4 t ht
  rintro ⟨olit, b, d2⟩ s1 hl1 ⟨k3, -, hb1, hb2, hb3, hb4⟩
  simp only at k3 hb1 hb2 hb3 hb4 ⊢
  have hcnt : ∀ t, cnt d2 root t = (cons.map (conVal st.db t)).sum := fun t => by
    rw [k3.step.step.cnt root t hrn, m3]
  have hge : ∀ t, pb.Sol t → b ≤ cnt d2 root t := fun t ht => by
    rw [k3.step.step.cnt root t hrn]; exact hb3 t ht
  have hoff : ∀ t, pb.Sol t → st.reform.offset + (b - 1) * c.weight ≤ icost o t := by
    intro t ht
    have e := h.ref.ident t ht
    have := usum_pos (U := (cons, c.weight) :: U) (h := fun cons => (cons.map (conVal st.db t)).sum - 1)
      (u := (cons, c.weight)) (by simp)
    simp only at this
    rw [← hcnt t] at this
    have h2 : (b - 1) * c.weight ≤ c.weight * (cnt d2 root t - 1) := by
      rw [Nat.mul_comm]
      have := hge t ht
      exact Nat.mul_le_mul_left _ (by omega)
    omega
  obtain ⟨t, ht⟩ := hF
  rw [wp_bind]
  have hofs : wp env (if b > 1 then do
        let d ← isDebug
        let offset ← unwrap (addUsize d st.reform.offset ((b - 1) * c.weight))
        logEvent (.coreExhaustion b c.weight)
        M.pure offset
      else M.pure st.reform.offset)
      (fun off' s2 => LK (off' :: xs) s2) (LX pb o xs) s1 := by
    split
    · next hb =>
      rw [wp_bind, wp_isDebug, wp_bind]
      cases hadd : addUsize env.debug st.reform.offset ((b - 1) * c.weight) with
      | none =>
        rw [wp_unwrap_none]
        exact .inl rfl
      | some off' =>
        rw [wp_unwrap_some, wp_bind]
        have hoff' := addUsize_some hadd (Nat.le_trans (hoff t ht) (hfit t ht))
        exact wp_mono (LK.raise (z := off') (by simp) hoff' ⟨hb, c2⟩ hl1) (fun _ _ h => h) (fun _ _ h => .of hlow h)
    · rw [wp_pure]
      exact hl1
  refine wp_mono hofs ?_ (fun _ _ h => h)
  intro off' s2 hl2
  split
  · rw [wp_bind]
    exact wp_mono (pk_insert _ _ _ s2 hl2) (fun _ _ h => h) (fun _ _ h => .inl h)
  · exact hl2

theorem lk_reformCores (wf : pb.WF) (orc : OracleOK env)
    (hob : ∀ l ∈ objLits o, l.var < pb.n0) (hfit : ∀ t, pb.Sol t → icost o t ≤ usizeMax) (hF : ∃ t, pb.Sol t)
    (cs : List CoreData)
    {st : OllState D} (h : OInv pb env n o st (cs.map (sliceOf st.cons)) s) (hsl : SlicesOK cs st.cons)
    (hl : LK (st.reform.offset :: xs) s) :
    wp env (reformCores [] cs st) (fun st' s' => LK (st'.reform.offset :: xs) s') (LX pb o xs) s := by
  induction cs generalizing st s with
  | nil => exact hl
  | cons c cs ih =>
    unfold reformCores
    rw [wp_bind]
    refine wp_both (wp_reformCore (fuel := 0) (N := 0) wf orc hob hfit (U := cs.map (sliceOf st.cons)) h (hsl c (by simp))
      (.self h.cg h.lim))
      (wp_mono (lk_reformCore wf orc hfit hF (U := cs.map (sliceOf st.cons)) h (hsl c (by simp)) hl) ?_
        (fun _ _ h _ => h))
    rintro st1 s1 hl1 ⟨h1, -, hc1, -, -⟩
    exact ih (by rw [hc1]; exact h1) (by rw [hc1]; exact fun c hc => hsl c (by simp [hc])) hl1

theorem lk_ollBody (wf : pb.WF) (orc : OracleOK env) (nd : NoDupCores env)
    (hob : ∀ l ∈ objLits o, l.var < pb.n0) (hfit : ∀ t, pb.Sol t → icost o t ≤ usizeMax) (hF : ∃ t, pb.Sol t)
    {s0 : Slv P C} {d0 : D} {st : OllState D} (h : LInv pb env n o s0 d0 st s) (exactRef : Bool)
    (hl : LK (st.reform.offset :: xs) s) :
    wp env (ollBody fuel [] [] exactRef st) (fun r s' => match r with
      | .inl st' => LK (st'.reform.offset :: xs) s'
      | .inr b => ∀ sol, b.1 = some sol → LK (b.2.1.offset :: xs) s') (LX pb o xs) s := by
  have hlow := h.inv.offset_le
  unfold ollBody
  rw [wp_bind]
  refine wp_ollPrepare h.inv.ones.good h.inv.ref.keys h.inv.rest ?_
  rintro ⟨i, rest⟩ hi1 hi2 hi3 hi4 hi5
  simp only at hi1 hi2 hi3 hi4 hi5 ⊢
  have href : RefOK pb o st.db i.wts st.reform.refs (st.cores.map (sliceOf st.cons)) st.reform.offset 0 [] := by
    rcases hi1 with e | e
    · rw [e]; exact h.inv.ref
    · rw [e]; exact h.inv.ref.clean
  have hones : OnesOK i st.reform.refs (st.cores.map (sliceOf st.cons)) :=
    ⟨hi3, by rw [hi2]; exact h.inv.ones.refs, by rw [hi2]; exact h.inv.ones.cores⟩
  have hrest : RestOK rest i.wts := by
    refine ⟨hi4, fun a ha => ?_, fun l w hl hw => ?_⟩
    · obtain ⟨w, -, hm⟩ := (hi5 a).1 ha
      exact List.mem_map.2 ⟨_, hm, rfl⟩
    · exact (hi5 _).2 ⟨w, hw, by rw [lit_not_not]; exact hl⟩
  rw [wp_bind, List.nil_append]
  -- what is known of the call
  have hcall : wp env (solveAssumps rest) (fun r s1 => Same s s1 ∧ IoInv env n s1.io ∧ (r = .unsat → ∃ core,
      s1.k.ostate = .unsat core ∧ core.Nodup ∧ (∀ l ∈ core, l.not ∈ rest) ∧
      ∀ m, cnfEval m s.k.db = true → clauseEval m core = true)) (fun _ _ => True) s := by
    refine wp_solveAssumpsL orc _ h.inv.io ?_ ?_ ?_ (fun e s' _ h => trivial)
    · intro m s1 h1 hst1 hio1 hm hcube
      exact ⟨h1, hio1, by simp⟩
    · intro t lim core s1 horc h1 hst1 hio1 hsub himp
      exact ⟨h1, hio1, fun _ => ⟨core, hst1, nd _ _ _ _ _ horc hi4, hsub, himp⟩⟩
    · intro hl
      rw [h.inv.lim] at hl
      simp at hl
  refine wp_both hcall (wp_mono (nk_solveAssumps rest s hl) ?_ (fun _ _ h _ => .of hlow h))
  rintro r s1 hl1 ⟨h1, hio1, hr⟩
  cases r with
  | interrupted => exact .inl rfl
  | sat =>
    simp only
    split
    · rw [wp_bind]
      refine wp_mono (nk_oracleSolution s1 hl1) (fun sol s2 hl2 => ?_) (fun _ _ h => .of hlow h)
      have hfin : ∀ d2 s2, LK (st.reform.offset :: xs) s2 →
          wp env (do
            logRoutineEnd
            M.pure (Sum.inr (some sol,
              { inactives := i.finalCleanup, refs := st.reform.refs, offset := st.reform.offset }, d2)) :
              M P C (OllState D ⊕ OllResult D))
          (fun r s' => match r with
            | .inl st' => LK (st'.reform.offset :: xs) s'
            | .inr b => ∀ sol, b.1 = some sol → LK (b.2.1.offset :: xs) s') (LX pb o xs) s2 := by
        intro d2 s2 hl2
        rw [wp_bind]
        refine wp_mono (nk_end s2 hl2) (fun _ s3 hl3 => ?_) (fun _ _ h => .of hlow h)
        rw [wp_pure]
        exact fun _ _ => hl3
      split
      · rw [wp_bind]
        exact wp_mono (nk_reserveOutputs _ _ s2 hl2) (fun _ _ h => hfin _ _ h) (fun _ _ h => .of hlow h)
      · rw [wp_bind, wp_pure]
        exact hfin _ _ hl2
    · rw [wp_bind]
      refine wp_mono (lk_reformCores wf orc hob hfit hF st.cores (s := s1)
        (st := { st with reform := { st.reform with inactives := i }, rest := rest })
        ⟨h.inv.cg.same h1, by rw [h1.lim]; exact h.inv.lim, hio1, href, hones, hrest⟩ h.slices hl1) (fun _ _ h => h)
        (fun _ _ h => h)
  | unsat =>
    obtain ⟨core, hst, hnd, hsub, himp⟩ := hr rfl
    simp only
    rw [wp_bind]
    refine wp_oracleCore hst ?_
    rw [filterBase_nil]
    split
    · rw [wp_bind]
      refine wp_mono (nk_end s1 hl1) (fun _ s3 hl3 => ?_) (fun _ _ h => .of hlow h)
      rw [wp_pure]
      intro sol h'
      cases h'
    · rw [wp_bind]
      refine wp_mono (lk_handleCore (N := maxCost o) orc nd hob hfit (Nat.le_refl _) hF
        (st := { st with reform := { st.reform with inactives := i }, rest := rest }) (s := s1)
        ⟨h.inv.cg.same h1, by rw [h1.lim]; exact h.inv.lim, hio1, href, hones, hrest⟩
        ⟨hnd, by rw [h1.db]; exact himp⟩ ?_ hl1) (fun _ _ h => h) (fun _ _ h => h)
      intro l hl
      obtain ⟨w, hw, hm⟩ := (hi5 _).1 (hsub l hl)
      rw [lit_not_not] at hm
      exact ⟨w, hw, hm⟩

theorem lk_oll (wf : pb.WF) (orc : OracleOK env) (nd : NoDupCores env) (hc : o.isConstant = false)
    (hob : ∀ l ∈ objLits o, l.var < pb.n0) (hn : (objLits o).Nodup) (hfit : ∀ t, pb.Sol t → icost o t ≤ usizeMax)
    (hF : ∃ t, pb.Sol t) (hi : CG pb d s) (hlim : s.k.conflLimited = false) (hio : IoInv env n s.io)
    (exactRef : Bool) (hl : LK xs s) :
    wp env (oll fuel (Reform.ofObjective o) [] d exactRef) (fun b s' => ∀ sol, b.1 = some sol → LK (b.2.1.offset :: xs) s')
      (LX pb o xs) s := by
  obtain ⟨h1, h2, h3, h4, h5, h6⟩ := ofObjective_wts hc
  unfold oll
  rw [if_neg h6, wp_bind]
  have hst : wp env (logRoutineStart "oll") (fun _ s' => Same s s' ∧ IoInv env n s'.io) (fun _ _ => True) s :=
    wp_logEvent _ hio (fun s1 g1 _ hio1 => ⟨g1, hio1⟩) (fun _ _ _ _ => trivial)
  refine wp_both hst (wp_mono hl.begin ?_ (fun _ _ h _ => .inr (.inl h)))
  rintro _ s1 hl1 ⟨g1, hio1⟩
  refine wp_loop_inv (fun st s' => LInv pb env n o s d st s' ∧ LK (st.reform.offset :: xs) s') fuel _ _ ?_ ?_
    ⟨LInv.init (env := env) hc hn hi hlim g1 hio1, ?_⟩
  · rintro st s2 ⟨hL, hl2⟩
    refine wp_both (wp_ollBody (fuel := fuel) (N := maxCost o) wf orc nd hob hfit (Nat.le_refl _) hL exactRef (.self hL.inv.cg hL.inv.lim))
      (wp_mono (lk_ollBody wf orc nd hob hfit hF hL exactRef hl2) ?_ (fun _ _ h _ => h))
    rintro (st' | b) s3 hl3 hp
    · exact ⟨hp.1, hl3⟩
    · exact hl3
  · rintro st s2 ⟨hL, hl2⟩
    exact .of hL.inv.offset_le hl2
  · simp only [h5]; exact hl1

/-! ## Core boosting -/

variable [LawfulMergeEnc P C D] {inst : Instance} {opts : KernelOptions} {bcg : Assignment → Clause}

/-- No solution has a lower internal value. -/
def LowI (pb : Pb) (o : Objective) (x : Nat) : Prop := ∀ t, pb.Sol t → x ≤ icost o t

/-- The least internal value. -/
def MinI (pb : Pb) (o : Objective) (x : Nat) : Prop := LowI pb o x ∧ ∃ t, pb.Sol t ∧ icost o t = x

/-- The objectives before index `k` that core-guided search is run on. -/
def searchedTo (inst : Instance) (k : Nat) : List Objective := (inst.objs.take k).filter fun o => !o.isConstant

theorem searchedTo_succ {k : Nat} (h : inst.objs[k]? = some o) :
    searchedTo inst (k + 1) = searchedTo inst k ++ if o.isConstant then [] else [o] := by
  unfold searchedTo
  rw [List.take_add_one, h, List.filter_append]
  congr 1
  cases hc : o.isConstant <;> simp [hc]

/-- How the log may be if core boosting stops early. -/
def LBX (inst : Instance) (opts : KernelOptions) (bcg : Assignment → Clause) (s : Slv P C) : Prop :=
  ∃ k ys, LK ys s ∧ List.Forall₂ (LowI (inst.pb opts bcg)) (searchedTo inst k) ys.reverse

theorem LBX.ofMin {k : Nat} (h : LK xs s) (hx : List.Forall₂ (MinI (inst.pb opts bcg)) (searchedTo inst k) xs.reverse) :
    LBX inst opts bcg s := ⟨k, xs, h, hx.imp fun _ _ h => h.1⟩

theorem lk_coreBoostLoop (hs : Setting inst bcg opts env) (nd : NoDupCores env) (hlits : NoDupLits inst)
    (hF : ∃ t, (inst.pb opts bcg).Sol t) {s0 : Slv P C}
    (k : Nat) (acc : List (Reform × D)) (h : BInv inst opts bcg env s0 acc s) (hk : acc.length + k ≤ inst.objs.length)
    (hl : LK xs s) (hx : List.Forall₂ (MinI (inst.pb opts bcg)) (searchedTo inst acc.length) xs.reverse) :
    wp env (coreBoostLoop D fuel k acc.length acc) (fun _ s' => ∃ ys, LK ys s' ∧
        List.Forall₂ (MinI (inst.pb opts bcg)) (searchedTo inst (acc.length + k)) ys.reverse)
      (fun _ s' => LBX inst opts bcg s') s := by
  induction k generalizing acc s xs with
  | zero =>
    unfold coreBoostLoop
    rw [wp_pure]
    exact ⟨xs, hl, hx⟩
  | succ k ih =>
    unfold coreBoostLoop
    rw [wp_bind, wp_getS]
    have hlen := h.rel.length
    have hlt : acc.length < s.k.objs.length := by omega
    rw [List.getElem?_eq_getElem hlt, wp_bind, wp_unwrap_some]
    have ho : s.k.objs[acc.length]? = some s.k.objs[acc.length] := List.getElem?_eq_getElem hlt
    generalize s.k.objs[acc.length] = o at ho
    have hmem : o ∈ s.k.objs := List.mem_of_getElem? ho
    have hpb := pbLb (inst := inst) (opts := opts) (bcg := bcg) h.rel
    have hlen' : ∀ (r : Reform) (d : D), (acc ++ [(r, d)]).length = acc.length + 1 := by simp
    obtain ⟨oi, hoi, hei⟩ := h.rel.get ho
    have hsucc := searchedTo_succ hoi
    have hgo : ∀ (r : Reform) (d : D) s1 zs, BInv inst opts bcg env s0 (acc ++ [(r, d)])
        { s1 with k := { s1.k with objs := s1.k.objs.modify acc.length (Objective.setLowerBound r.offset) } } →
        LK zs s1 → List.Forall₂ (MinI (inst.pb opts bcg)) (searchedTo inst (acc.length + 1)) zs.reverse →
        wp env (do
          setLowerBoundAt acc.length r.offset
          coreBoostLoop D fuel k (acc.length + 1) (acc ++ [(r, d)]))
        (fun _ s' => ∃ ys, LK ys s' ∧
          List.Forall₂ (MinI (inst.pb opts bcg)) (searchedTo inst (acc.length + (k + 1))) ys.reverse)
        (fun _ s' => LBX inst opts bcg s') s1 := by
      intro r d s1 zs hb hl1 hx1
      unfold setLowerBoundAt
      rw [wp_bind, wp_modifyS]
      have := ih (acc ++ [(r, d)]) hb (by rw [hlen']; omega) (LogHas.congr hl1 rfl) (by rw [hlen']; exact hx1)
      rw [hlen'] at this
      rw [show acc.length + (k + 1) = acc.length + 1 + k by omega]
      exact this
    rw [wp_bind]
    split
    · next hc =>
      rw [wp_pure]
      simp only
      refine hgo _ _ _ xs ?_ hl (by rw [hsucc, ← lb_isConstant hei, if_pos hc, List.append_nil]; exact hx)
      have hit : o.iter = [] := by cases o <;> simp_all [Objective.isConstant, Objective.iter]
      have hrf : Reform.ofObjective o = ⟨.constant, [], 0⟩ := by cases o <;> simp_all [Objective.isConstant, Reform.ofObjective]
      have hz : ∀ t, icost o t = 0 := fun t => by unfold icost; rw [hit]; rfl
      refine h.push rfl ho h.cg (TStep.refl _ _) h.lim h.io ?_
        ⟨LawfulTotDb.empty_base _, by simp [hrf], by simp [hrf, mapGet], by simp [hrf, mapGet]⟩ (by simp [hrf]) (by simp [hrf]) ?_
      · rw [hrf]
        exact ⟨List.nodup_nil, List.nodup_nil, by simp [Inactives.iter], by simp [mapGet], by simp [Inactives.iter],
          fun t _ => by rw [hz]; rfl, by unfold maxCost; rw [hit]; rfl⟩
      rintro (h' | ⟨t, ht⟩)
      · rw [hc] at h'; simp at h'
      · exact ⟨t, ht, by rw [hz, hrf]⟩
    · next hc =>
      rw [wp_bind]
      have hc' : o.isConstant = false := by simpa using hc
      rw [← lb_isConstant hei, if_neg hc] at hsucc
      obtain ⟨oo, hoo, hee⟩ := h.rel.mem hmem
      have wf := pb_wf (opts := opts) (bcg := bcg) (h.rel.setting hs).wf
      have hob : ∀ l ∈ objLits o, l.var < (pbAt inst opts bcg s).n0 := by
        intro l hl
        obtain ⟨p, hp, rfl⟩ := (mem_objLits o l).1 hl
        exact wf.objs o hmem p hp
      have hF' : ∃ t, (pbAt inst opts bcg s).Sol t := hF
      have hnd : (objLits o).Nodup := by rw [lb_objLits hee]; exact hlits oo hoo
      refine wp_both (wp_oll (n := inst.objs.length) (N := 2 * maxCost o + 1) wf (CorrectOracle.ok hs.oracle) nd hc' hob
        hnd (fun t ht => icost_le_usize h.rel hs hmem ht) (Nat.le_refl _) h.cg h.lim h.io true
        (.self h.cg h.lim))
        (wp_mono (lk_oll wf (CorrectOracle.ok hs.oracle) nd hc' hob hnd (fun t ht => icost_le_usize h.rel hs hmem ht) hF'
          h.cg h.lim h.io true hl) ?_ ?_)
      · rintro ⟨sol, r, d⟩ s1 hl1 hr
        cases sol with
        | none =>
          simp only [OllPost] at hr
          exact absurd hF' hr.1
        | some sol =>
          simp only [OllPost] at hr
          simp only
          rw [wp_pure]
          simp only
          refine hgo _ _ _ (r.offset :: xs) (h.push rfl ho hr.keeps.cg hr.keeps.step hr.lim hr.keeps.io (hr.merge hob)
            ⟨hr.keeps.cg.base, hr.ref.roots, fun l rd hg => ⟨(hr.ref.refs l rd hg).1, (hr.ref.refs l rd hg).2.1⟩, hr.ref.lew⟩
            hr.shape hr.lower
            (fun _ => hr.opt)) (hl1 sol rfl) ?_
          rw [hsucc, List.reverse_cons]
          refine List.rel_append hx (.cons ⟨fun t ht => ?_, ?_⟩ .nil)
          · rw [← lb_icost hei]; exact hr.lower t ht
          · obtain ⟨t, h1, h2⟩ := hr.opt
            exact ⟨t, h1, by rw [← lb_icost hei]; exact h2⟩
      · rintro e s1 (rfl | h1 | ⟨y, hy, h1⟩) hg
        · exact absurd hF' hg.2
        · exact .ofMin h1 hx
        · refine ⟨acc.length + 1, y :: xs, h1, ?_⟩
          rw [hsucc, List.reverse_cons]
          refine List.rel_append (hx.imp fun _ _ h => h.1) (.cons (fun t ht => ?_) .nil)
          rw [← lb_icost hei]; exact hy t ht

theorem lk_kernelCoreBoost (hs : Setting inst bcg opts env) (nd : NoDupCores env) (hlits : NoDupLits inst)
    (hF : ∃ t, (inst.pb opts bcg).Sol t) {s0 : Slv P C}
    (h : BInv inst opts bcg env s0 ([] : List (Reform × D)) s) (hl : LK [] s) :
    wp env (kernelCoreBoost D fuel) (fun _ s' => ∃ ys, LK ys s' ∧
        List.Forall₂ (MinI (inst.pb opts bcg)) (searchedTo inst inst.objs.length) ys.reverse)
      (fun _ s' => LBX inst opts bcg s') s := by
  have h0 : List.Forall₂ (MinI (inst.pb opts bcg)) (searchedTo inst 0) ([] : List Nat).reverse := by
    simp [searchedTo]
  unfold kernelCoreBoost
  rw [wp_bind]
  have hst : wp env (logRoutineStart "core boost") (fun _ s' => Same s s' ∧ s'.k = s.k ∧ IoInv env inst.objs.length s'.io)
      (fun _ _ => True) s :=
    wp_logEvent _ h.io (fun s1 g1 hk hio1 => ⟨g1, hk, hio1⟩) (fun _ _ _ _ => trivial)
  refine wp_both hst (wp_mono (nk_start (by decide) s hl) ?_ (fun _ _ h _ => .ofMin (k := 0) h h0))
  rintro _ s1 hl1 ⟨h1, hk1, hio1⟩
  have hb := h.same h1 hk1 hio1
  rw [wp_bind, wp_getS, wp_bind, hio1.base.1]
  refine wp_mono (lk_coreBoostLoop hs nd hlits hF inst.objs.length [] hb (by simp) hl1 h0) ?_ (fun _ _ h => h)
  rintro r s2 ⟨ys, hl2, hy⟩
  rw [List.length_nil, Nat.zero_add] at hy
  rw [wp_bind]
  refine wp_mono (nk_end s2 hl2) (fun _ s3 hl3 => ?_) (fun _ _ h => .ofMin h hy)
  rw [wp_bind]
  refine wp_mono (nk_logEvent ⟨by simp, rfl, by trivial⟩ s3 hl3) (fun _ s4 hl4 => ?_) (fun _ _ h => .ofMin h hy)
  exact ⟨ys, hl4, hy⟩

theorem lk_coreBoost {cb : CbOptions} (hs : Setting inst bcg opts env) (nd : NoDupCores env) (hlits : NoDupLits inst)
    (hF : ∃ t, (inst.pb opts bcg).Sol t) {s0 : Slv P C} (h : BInv inst opts bcg env s0 ([] : List (Reform × D)) s)
    (hl : LK [] s) :
    wp env (coreBoost D fuel cb) (fun _ s' => ∃ ys, LK ys s' ∧
        List.Forall₂ (MinI (inst.pb opts bcg)) (searchedTo inst inst.objs.length) ys.reverse)
      (fun _ s' => LBX inst opts bcg s') s := by
  unfold coreBoost
  rw [wp_bind, wp_getS]
  split
  · exact .ofMin (k := 0) hl (by simp [searchedTo])
  · rw [wp_bind]
    refine wp_mono (lk_kernelCoreBoost hs nd hlits hF h hl) ?_ (fun _ _ h => h)
    rintro r s1 ⟨ys, hl1, hy⟩
    cases r with
    | none => exact ⟨ys, hl1, hy⟩
    | some res => exact wp_mono (nk_afterBoost cb res s1 hl1) (fun _ _ h => ⟨ys, h, hy⟩) (fun _ _ h => .ofMin h hy)

end Scuttle
