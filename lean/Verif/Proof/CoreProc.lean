import Verif.Proof.CoreGuided
import Verif.SpecCore

/-!
# Rules for the post-processing of cores with base assumptions
-/

set_option linter.unusedSectionVars false

namespace Scuttle

open Spec

variable {P C : Type}
variable {env : Env} {s s' : Slv P C} {base core : List Lit}

/-! ## Calls of the oracle -/

/-- Stopping is of no interest here. -/
abbrev anyStop : Stop → Slv P C → Prop := fun _ _ => True

theorem wp_logEvent_any {Q : Unit → Slv P C → Prop} (ev : LogEvent) (h : ∀ io, Q () { s with io := io }) :
    wp env (logEvent ev) Q anyStop s := by
  unfold wp logEvent
  cases s.io.logger with
  | none => exact h s.io
  | some l =>
    simp only
    cases env.logOk s.io.tick with
    | true => exact h _
    | false => trivial

theorem wp_solveAssumps_any {Q : SolverResult → Slv P C → Prop} (as : List Lit)
    (h : ∀ r s', s'.k.db = s.k.db → (∀ core, s'.k.ostate = .unsat core →
      ∃ t lim, env.oracle t lim s.k.db as = .unsat core) → Q r s') : wp env (solveAssumps as) Q anyStop s := by
  unfold solveAssumps logRoutineStart logRoutineEnd
  rw [wp_bind]
  refine wp_logEvent_any _ fun io1 => ?_
  rw [wp_bind]
  have horc : wp env (oracleSolve as : M P C SolverResult) (fun _ s' => s'.k.db = s.k.db ∧
      ∀ core, s'.k.ostate = .unsat core → ∃ t lim, env.oracle t lim s.k.db as = .unsat core) anyStop
      { s with io := io1 } := by
    unfold wp oracleSolve
    cases ho : env.oracle io1.tick s.k.conflLimited s.k.db as with
    | sat m => exact ⟨rfl, by simp⟩
    | unsat core =>
      refine ⟨rfl, fun core' hc => ⟨io1.tick, s.k.conflLimited, ?_⟩⟩
      simp only [OracleState.unsat.injEq] at hc
      exact hc ▸ ho
    | interrupted => exact ⟨rfl, by simp⟩
  refine wp_mono horc ?_ (fun _ _ h => h)
  rintro r s2 ⟨h1, h2⟩
  rw [wp_bind]
  refine wp_logEvent_any _ fun io3 => ?_
  rw [wp_bind]
  unfold wp checkTermination
  simp only
  split
  · rename_i hx
    split at hx
    · simp at hx
    · simp only [Prod.mk.injEq] at hx
      obtain ⟨-, rfl⟩ := hx
      show wp env (do logOracleCall r; M.pure r) Q anyStop _
      unfold logOracleCall bumpStats
      rw [wp_bind, wp_bind, wp_modifyS, wp_bind]
      refine wp_logEvent_any _ fun io4 => ?_
      unfold wp stepLimit
      simp only
      split
      · rename_i hy
        split at hy
        · simp at hy
        · split at hy
          · simp at hy
          · simp only [Prod.mk.injEq] at hy
            obtain ⟨-, rfl⟩ := hy
            exact h r _ h1 h2
      · trivial
  · trivial

theorem wp_oracleCore_any {Q : List Lit → Slv P C → Prop} (h : ∀ core, s.k.ostate = .unsat core → Q core s) :
    wp env oracleCore Q anyStop s := by
  unfold oracleCore
  rw [wp_bind, wp_getS]
  split
  · next c hc => exact h c hc
  · trivial

/-! ## Filtering base assumptions -/

theorem mem_dropWhile {α} {p : α → Bool} {l : List α} {a : α} (h : a ∈ l.dropWhile p) : a ∈ l :=
  (List.dropWhile_sublist p).subset h

theorem dropBase_sub (base core : List Lit) : ∀ l ∈ dropBase base core, l ∈ core := by
  induction core generalizing base with
  | nil => intro l hl; simp [dropBase] at hl
  | cons x core ih =>
    intro l hl
    unfold dropBase at hl
    simp only at hl
    split at hl
    · exact List.mem_cons_of_mem _ (ih _ l hl)
    · rcases List.mem_cons.1 hl with rfl | hl
      · simp
      · exact List.mem_cons_of_mem _ (ih _ l hl)

theorem dropBase_lost (base core : List Lit) : ∀ l ∈ core, l ∈ dropBase base core ∨ l.not ∈ base := by
  induction core generalizing base with
  | nil => intro l hl; simp at hl
  | cons x core ih =>
    intro l hl
    unfold dropBase
    simp only
    split
    · next hh =>
      rcases List.mem_cons.1 hl with rfl | hl
      · right
        exact mem_dropWhile (List.mem_of_mem_head? hh)
      · rcases ih (base.dropWhile fun a => litLt a x.not) l hl with h | h
        · exact .inl h
        · exact .inr (mem_dropWhile h)
    · rcases List.mem_cons.1 hl with rfl | hl
      · simp
      · rcases ih (base.dropWhile fun a => litLt a x.not) l hl with h | h
        · exact .inl (List.mem_cons_of_mem _ h)
        · exact .inr (mem_dropWhile h)

theorem litLt_irrefl (a : Lit) : litLt a a = false := by simp [litLt]

theorem dropBase_sorted (c1 c2 base : List Lit) (hs : base.Pairwise fun a b => litLt a b = true)
    (h : (c1.map Lit.not).Sublist base) : ∀ l ∈ dropBase base (c1 ++ c2), l ∈ c2 := by
  induction c1 generalizing base with
  | nil => exact dropBase_sub base c2
  | cons x c1 ih =>
    simp only [List.map_cons, List.cons_sublist_iff] at h
    obtain ⟨r1, r2, rfl, hx, hr⟩ := h
    obtain ⟨p, q, rfl⟩ := List.append_of_mem hx
    have hd : ((p ++ x.not :: q) ++ r2).dropWhile (fun a => litLt a x.not) = x.not :: (q ++ r2) := by
      rw [List.append_assoc] at hs ⊢
      have hp : ∀ a ∈ p, litLt a x.not = true := fun a ha => (List.pairwise_append.1 hs).2.2 a ha _ (by simp)
      rw [List.dropWhile_append_of_pos hp]
      simp [litLt_irrefl]
    rw [List.cons_append]
    unfold dropBase
    simp only [hd, List.head?_cons, if_true]
    have hsub : (x.not :: (q ++ r2)).Sublist ((p ++ x.not :: q) ++ r2) := by
      rw [List.append_assoc, List.cons_append]
      exact List.sublist_append_right _ _
    refine ih _ (hs.sublist hsub) ?_
    exact (hr.trans (List.sublist_append_right q r2)).trans (List.sublist_cons_self _ _)

theorem filterBase_sub (base core : List Lit) : ∀ l ∈ filterBase base core, l ∈ core := by
  unfold filterBase
  split
  · exact fun _ h => h
  · exact dropBase_sub base core

theorem filterBase_lost (base core : List Lit) : ∀ l ∈ core, l ∈ filterBase base core ∨ l.not ∈ base := by
  unfold filterBase
  split
  · exact fun _ h => .inl h
  · exact dropBase_lost base core

/-! ## Rules -/

/-- What post-processing makes of `core`. -/
structure Processed (env : Env) (db : List Clause) (base core core' : List Lit) : Prop where
  implied : CoreOf db base core'
  sub : ∀ l ∈ core', l ∈ core ∨ l.not ∈ base
  ordered : OrderedCores env → (base.Pairwise fun a b => litLt a b = true) → ∀ l ∈ core', l ∈ core

theorem litTrue_not {m : Asg} {l : Lit} : LitTrue m l.not ↔ ¬ LitTrue m l := by
  cases l with
  | mk v n => cases n <;> simp [LitTrue, Lit.not]

theorem filterBase_coreOf {db : List Clause} (orc : CorrectOracle env) {t : Nat} {lim : Bool} {as : List Lit}
    (h : env.oracle t lim db as = .unsat core) : CoreOf db base (filterBase base core) := by
  intro m hm hb
  obtain ⟨l, hl, ht⟩ := (orc.unsat t lim db as core h).2 m hm
  rcases filterBase_lost base core l hl with h1 | h1
  · exact ⟨l, h1, ht⟩
  · exact absurd ht (litTrue_not.1 (hb _ h1))

/-- A core of the base assumptions and some of the literals of a processed core is again one. -/
theorem Processed.again {db : List Clause} {core1 core2 rest : List Lit} (orc : CorrectOracle env)
    (h : Processed env db base core core1) {t : Nat} {lim : Bool} (hr : ∀ l ∈ rest, l ∈ core1)
    (ho : env.oracle t lim db (base ++ rest.map Lit.not) = .unsat core2) :
    Processed env db base core (filterBase base core2) where
  implied := filterBase_coreOf orc ho
  sub := by
    intro l hl
    rcases List.mem_append.1 ((orc.unsat _ _ _ _ _ ho).1 l (filterBase_sub _ _ l hl)) with h1 | h1
    · exact .inr h1
    · obtain ⟨x, hx, he⟩ := List.mem_map.1 h1
      rw [← lit_not_inj he]
      exact h.sub x (hr x hx)
  ordered := by
    intro hord hs l hl
    refine h.ordered hord hs l ?_
    obtain ⟨l1, l2, he, h1, h2⟩ := List.sublist_append_iff.1 (hord _ _ _ _ _ ho)
    obtain ⟨c1, c2, rfl, rfl, rfl⟩ := List.map_eq_append_iff.1 he
    have hl2 : l ∈ c2 := by
      unfold filterBase at hl
      split at hl
      · next hb =>
        have hb' : base = [] := by simpa using hb
        rw [hb'] at h1
        have : c1 = [] := by simpa using h1
        rw [this] at hl
        simpa using hl
      · exact dropBase_sorted c1 c2 base hs h1 l hl
    obtain ⟨x, hx, he⟩ := List.mem_map.1 (h2.subset (List.mem_map.2 ⟨l, hl2, rfl⟩))
    rw [← lit_not_inj he]
    exact hr x hx

theorem wp_minimizeLoop_any (orc : CorrectOracle env) (xs core1 : List Lit) {db : List Clause} (hdb : s.k.db = db)
    (h : Processed env db base core core1) :
    wp env (minimizeLoop base xs core1) (fun core' s' => s'.k.db = db ∧ Processed env db base core core') anyStop s := by
  induction xs generalizing s core1 with
  | nil => exact ⟨hdb, h⟩
  | cons x xs ih =>
    unfold minimizeLoop
    rw [wp_bind]
    refine wp_solveAssumps_any _ fun r s1 h1 h2 => ?_
    split
    · rw [wp_bind]
      refine wp_oracleCore_any fun core2 hc => ?_
      obtain ⟨t, lim, h4⟩ := h2 core2 hc
      rw [hdb] at h4
      exact ih _ (h1.trans hdb) (h.again orc (fun l hl => List.mem_of_mem_filter hl) h4)
    · exact ih _ (h1.trans hdb) h

theorem wp_minimizeCore_any (orc : CorrectOracle env) (hc : CoreOf s.k.db base core) :
    wp env (minimizeCore core base) (fun core' s' => s'.k.db = s.k.db ∧ Processed env s.k.db base core core') anyStop s := by
  have h0 : Processed env s.k.db base core core := ⟨hc, fun _ h => .inl h, fun _ _ _ h => h⟩
  unfold minimizeCore logRoutineStart logRoutineEnd setConflLimit
  rw [wp_bind, wp_getS]
  split
  · exact ⟨rfl, h0⟩
  split
  · exact ⟨rfl, h0⟩
  rw [wp_bind]
  refine wp_logEvent_any _ fun io1 => ?_
  rw [wp_bind, wp_modifyS, wp_bind]
  refine wp_mono (wp_minimizeLoop_any orc _ core rfl h0) ?_ (fun _ _ h => h)
  rintro core' s2 ⟨h1, h2⟩
  rw [wp_bind, wp_modifyS, wp_bind]
  refine wp_logEvent_any _ fun io3 => ?_
  exact ⟨h1, h2⟩

theorem wp_trimCore_any (orc : CorrectOracle env) {fuel : Nat} (hc : CoreOf s.k.db base core) :
    wp env (trimCore fuel core base) (fun core' s' => s'.k.db = s.k.db ∧ Processed env s.k.db base core core') anyStop s := by
  have h0 : Processed env s.k.db base core core := ⟨hc, fun _ h => .inl h, fun _ _ _ h => h⟩
  unfold trimCore logRoutineStart logRoutineEnd
  rw [wp_bind, wp_getS]
  split
  · exact ⟨rfl, h0⟩
  split
  · exact ⟨rfl, h0⟩
  rw [wp_bind]
  refine wp_logEvent_any _ fun io1 => ?_
  rw [wp_bind]
  refine wp_mono (Q := fun core' s' => s'.k.db = s.k.db ∧ Processed env s.k.db base core core') ?_ ?_ (fun _ _ h => h)
  · refine wp_loop_inv (fun c s' => s'.k.db = s.k.db ∧ Processed env s.k.db base core c) fuel _ _ ?_ (fun _ _ _ => trivial)
      ⟨rfl, h0⟩
    rintro c s1 ⟨h1, h2⟩
    unfold trimBody
    split
    · rw [wp_bind]
      refine wp_solveAssumps_any _ fun r s2 h3 h4 => ?_
      rw [wp_bind, wp_dbg_iff]
      split
      · trivial
      rw [wp_bind]
      refine wp_oracleCore_any fun core2 hc2 => ?_
      have hr : Processed env s.k.db base core (filterBase base core2) := by
        obtain ⟨t, lim, h5⟩ := h4 core2 hc2
        rw [h1] at h5
        exact h2.again orc (fun _ h => h) h5
      simp only
      split
      · exact ⟨h3.trans h1, hr⟩
      · exact ⟨h3.trans h1, hr⟩
    · exact ⟨h1, h2⟩
  · rintro core' s2 ⟨h1, h2⟩
    rw [wp_bind]
    refine wp_logEvent_any _ fun io3 => ?_
    exact ⟨h1, h2⟩

end Scuttle
