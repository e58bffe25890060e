import Verif.Props.BosOrder

/-!
# C74: the points that BiOptSat lists only depend on the instance
-/

set_option linter.unusedSectionVars false

namespace Scuttle

open Spec

theorem Spec.Before.asymm {v w : List Int} (h : Before v w) (h' : Before w v) : False := by
  obtain ⟨a, b, c, d, rfl, rfl, h1, -⟩ := h
  obtain ⟨a', b', c', d', h2, h3, h4, -⟩ := h'
  simp only [List.cons.injEq, and_true] at h2 h3
  omega

/-- Two sorted lists without gaps. -/
theorem prefix_of_before (l l' : List (List Int)) (N : List Int → Prop) (hs : l.Pairwise Before) (hs' : l'.Pairwise Before)
    (hn : ∀ v ∈ l, N v) (hn' : ∀ v ∈ l', N v) (hm : ∀ v, N v → v ∈ l ∨ ∀ w ∈ l, Before w v)
    (hm' : ∀ v, N v → v ∈ l' ∨ ∀ w ∈ l', Before w v) : l <+: l' ∨ l' <+: l := by
  induction l generalizing l' N with
  | nil => exact .inl (List.nil_prefix)
  | cons a r ih =>
    cases l' with
    | nil => exact .inr (List.nil_prefix)
    | cons b r' =>
      rw [List.pairwise_cons] at hs hs'
      have key : a = b := by
        have h1 : a = b ∨ Before b a := by
          rcases hm' a (hn a List.mem_cons_self) with h | h
          · rcases List.mem_cons.1 h with h | h
            · exact .inl h
            · exact .inr (hs'.1 a h)
          · exact .inr (h b List.mem_cons_self)
        have h2 : b = a ∨ Before a b := by
          rcases hm b (hn' b List.mem_cons_self) with h | h
          · rcases List.mem_cons.1 h with h | h
            · exact .inl h
            · exact .inr (hs.1 b h)
          · exact .inr (h a List.mem_cons_self)
        rcases h1 with h1 | h1
        · exact h1
        · rcases h2 with h2 | h2
          · exact h2.symm
          · exact (h1.asymm h2).elim
      subst key
      have hself : ¬ Before a a := fun h => h.asymm h
      rcases ih r' (fun v => N v ∧ v ≠ a) hs.2 hs'.2
        (fun v hv => ⟨hn v (List.mem_cons_of_mem _ hv), fun h => hself (by have := hs.1 v hv; rwa [h] at this)⟩)
        (fun v hv => ⟨hn' v (List.mem_cons_of_mem _ hv), fun h => hself (by have := hs'.1 v hv; rwa [h] at this)⟩)
        (fun v hv => by
          rcases hm v hv.1 with h | h
          · exact .inl ((List.mem_cons.1 h).resolve_left hv.2)
          · exact .inr fun w hw => h w (List.mem_cons_of_mem _ hw))
        (fun v hv => by
          rcases hm' v hv.1 with h | h
          · exact .inl ((List.mem_cons.1 h).resolve_left hv.2)
          · exact .inr fun w hw => h w (List.mem_cons_of_mem _ hw)) with h | h
      · exact .inl (List.cons_prefix_cons.2 ⟨rfl, h⟩)
      · exact .inr (List.cons_prefix_cons.2 ⟨rfl, h⟩)

variable {inst : Instance}

theorem Spec.LeftPart.prefix {f f' : ParetoFront Assignment} (h : LeftPart inst f) (h' : LeftPart inst f')
    (hs : SoundFront inst f) (hs' : SoundFront inst f') :
    f.map NonDomPoint.costs <+: f'.map NonDomPoint.costs ∨ f'.map NonDomPoint.costs <+: f.map NonDomPoint.costs := by
  have gen : ∀ {f : ParetoFront Assignment}, LeftPart inst f → SoundFront inst f →
      (f.map NonDomPoint.costs).Pairwise Before ∧ (∀ v ∈ f.map NonDomPoint.costs, (problem inst).NonDominated v) ∧
      ∀ v, (problem inst).NonDominated v → v ∈ f.map NonDomPoint.costs ∨ ∀ w ∈ f.map NonDomPoint.costs, Before w v := by
    intro f h hs
    refine ⟨List.pairwise_map.2 h.sorted, fun v hv => ?_, fun v hv => (h.missing v hv).imp id fun h w hw => ?_⟩
    · obtain ⟨p, hp, rfl⟩ := List.mem_map.1 hv
      exact hs.sound p hp
    · obtain ⟨p, hp, rfl⟩ := List.mem_map.1 hw
      exact h p hp
  obtain ⟨a1, a2, a3⟩ := gen h hs
  obtain ⟨b1, b2, b3⟩ := gen h' hs'
  exact prefix_of_before _ _ _ a1 b1 a2 b2 a3 b3

theorem Spec.LeftPart.prefix_of_exact {f f' : ParetoFront Assignment} (h : LeftPart inst f) (h' : LeftPart inst f')
    (hs : SoundFront inst f) (hs' : ExactFront inst f') : f.map NonDomPoint.costs <+: f'.map NonDomPoint.costs := by
  rcases h.prefix h' hs ⟨fun p hp => (hs'.exact _).1 (List.mem_map_of_mem hp), hs'.once⟩ with h1 | ⟨x, h1⟩
  · exact h1
  · cases x with
    | nil =>
      rw [← h1, List.append_nil]
      exact List.prefix_rfl
    | cons v x =>
      exfalso
      have hv : v ∈ f.map NonDomPoint.costs := by rw [← h1]; simp
      obtain ⟨p, hp, hpv⟩ := List.mem_map.1 hv
      have hm := (hs'.exact v).2 (hpv ▸ hs.sound p hp)
      have hn := hs.once
      rw [← h1] at hn
      exact (List.nodup_append.1 hn).2.2 v hm v List.mem_cons_self rfl

/-! ## The theorems -/

variable {P C P' C' : Type} [UbEnc P] [UbEnc C] [LawfulUbEnc P] [LawfulUbEnc C] [UbEnc P'] [UbEnc C'] [LawfulUbEnc P']
  [LawfulUbEnc C'] {env env' : Env} {s : Slv P C} {s' : Slv P' C'} {opts opts' : KernelOptions}
  {bcg bcg' : Assignment → Clause} {limits limits' : Limits}

/-- C74: of two calls of BiOptSat on fresh solvers for the same instance, with whatever SAT solvers, encodings, options and
limits, one lists the same points as the other in the same order, up to where it stops. -/
theorem bioptsat_same_points (hs : Setting inst bcg opts env) (hl : LimitsFine env limits)
    (h0 : Started .biOptSat inst bcg opts s) (fuel : Nat) (hs' : Setting inst bcg' opts' env') (hl' : LimitsFine env' limits')
    (h0' : Started .biOptSat inst bcg' opts' s') (fuel' : Nat) {cs cs' : List (List Int)}
    (hc : (Alg.biOptSat.solve fuel limits env s).2.front.map NonDomPoint.costs = cs)
    (hc' : (Alg.biOptSat.solve fuel' limits' env' s').2.front.map NonDomPoint.costs = cs') :
    (cs <+: cs' ∨ cs' <+: cs) ∧
    ((Alg.biOptSat.solve fuel' limits' env' s').1 = .ok () → cs <+: cs' ∧
      ((Alg.biOptSat.solve fuel limits env s).1 = .ok () → cs = cs')) := by
  subst hc hc'
  have a1 := bioptsat_left_to_right hs hl h0 fuel
  have a2 := front_sound .biOptSat hs hl h0 fuel
  have b1 := bioptsat_left_to_right hs' hl' h0' fuel'
  have b2 := front_sound .biOptSat hs' hl' h0' fuel'
  refine ⟨a1.prefix b1 a2 b2, fun hd' => ?_⟩
  have b3 := biOptSat_exact_front hs' hl' h0' fuel' hd'
  have hp := a1.prefix_of_exact b1 a2 b3
  refine ⟨hp, fun hd => ?_⟩
  have a3 := biOptSat_exact_front hs hl h0 fuel hd
  exact hp.eq_of_length_le (b1.prefix_of_exact a1 b2 a3).length_le

variable {D : Type} [TotDb D] [LawfulTotDb D] [MergeEnc P C D] [LawfulMergeEnc P C D]

/-- C74: the same if there is core boosting before one of the calls, and no objective is flat (C48). -/
theorem coreBoost_bioptsat_same_points {cb : CbOptions} (hs : Setting inst bcg opts env) (hl : LimitsFine env limits)
    (nd : NoDupCores env) (hn : NoDupLits inst) (h0 : Started .biOptSat inst bcg opts s) (hflat : NotFlat inst)
    (fuelB fuel : Nat) (hb : (coreBoost D fuelB cb env s).1 = .ok true) (hs' : Setting inst bcg' opts' env')
    (hl' : LimitsFine env' limits') (h0' : Started .biOptSat inst bcg' opts' s') (fuel' : Nat) {cs cs' : List (List Int)}
    (hc : (Alg.biOptSat.solve fuel limits env (coreBoost D fuelB cb env s).2).2.front.map NonDomPoint.costs = cs)
    (hc' : (Alg.biOptSat.solve fuel' limits' env' s').2.front.map NonDomPoint.costs = cs') :
    (cs <+: cs' ∨ cs' <+: cs) ∧
    ((Alg.biOptSat.solve fuel' limits' env' s').1 = .ok () → cs <+: cs') ∧
    ((Alg.biOptSat.solve fuel limits env (coreBoost D fuelB cb env s).2).1 = .ok () → cs' <+: cs) := by
  subst hc hc'
  have a1 := coreBoost_bioptsat_left_to_right hs hl nd hn h0 hflat fuelB fuel hb
  have a2 : SoundFront inst (Alg.biOptSat.solve fuel limits env (coreBoost D fuelB cb env s).2).2.front := by
    obtain ⟨os, h1, -, h3, h4⟩ := boosted_run .biOptSat hs hl nd hn h0 (fun _ => hflat) hb fuel
    obtain ⟨cs, h5, -⟩ := h4.front
    have := h5.soundFront h3.unit
    exact ⟨by have := this.sound; rw [h1.problem] at this; exact this, this.once⟩
  have b1 := bioptsat_left_to_right hs' hl' h0' fuel'
  have b2 := front_sound .biOptSat hs' hl' h0' fuel'
  exact ⟨a1.prefix b1 a2 b2, fun hd' => a1.prefix_of_exact b1 a2 (biOptSat_exact_front hs' hl' h0' fuel' hd'),
    fun hd => b1.prefix_of_exact a1 b2 ((coreBoost_biOptSat_partial hs hl nd hn h0 hflat fuelB fuel hb).1 hd)⟩

/-! ## Examples -/

/-- Costs of the points after a call, and whether it is `Done`. -/
def Example.pointsWith (inst : Instance) (env : Env) (alg : Alg) (opts : KernelOptions) (limits : Limits) :
    Option (Bool × List (List Int)) :=
  (alg.new (P := RefEnc 0) (C := RefEnc 2) inst defaultBlockingClause opts).map fun s =>
    let r := alg.solve 50 limits env s
    (match r.1 with | .ok () => true | _ => false, r.2.front.map NonDomPoint.costs)

/-- The reference oracle on the clauses in reverse order. -/
def revEnv : Env := { refEnv true with oracle := fun _ _ db as => refOracle db.reverse as }

theorem revEnv_correct : CorrectOracle revEnv := by
  have h := refEnv_correct true
  refine ⟨?_, ?_, ?_, h.flip⟩
  · intro t lim db as m hm
    obtain ⟨h1, h2⟩ := h.sat t lim db.reverse as m hm
    exact ⟨fun c hc => h1 c (List.mem_reverse.2 hc), h2⟩
  · intro t lim db as core hc
    obtain ⟨h1, h2⟩ := h.unsat t lim db.reverse as core hc
    exact ⟨h1, fun m hm => h2 m fun c hc => hm c (List.mem_reverse.1 hc)⟩
  · intro t db as hi
    exact h.interrupted t db.reverse as hi

theorem Example.line_rev : Setting Example.line defaultBlockingClause {} revEnv :=
  { Example.line_setting with oracle := revEnv_correct, tight := fun h => by simp [revEnv, refEnv] at h }

/-- Complete calls with different oracles, and calls that are cut short. -/
example : Example.pointsWith Example.line (refEnv true) .biOptSat {} Limits.none =
      some (true, [[0, 3], [1, 2], [2, 1], [3, 0]]) ∧
    Example.pointsWith Example.line revEnv .biOptSat {} Limits.none = some (true, [[0, 3], [1, 2], [2, 1], [3, 0]]) ∧
    Example.pointsWith Example.line (refEnv true true) .biOptSat { enumeration := .solutions none } { sols := some 3 } =
      some (false, [[0, 3], [1, 2], [2, 1]]) ∧
    Example.pointsWith Example.line revEnv .biOptSat {} { pps := some 2 } = some (false, [[0, 3], [1, 2]]) :=
  ⟨by decide +kernel, by decide +kernel, by decide +kernel, by decide +kernel⟩

/-- C74 is a property of BiOptSat: in what order P-minimal and lower-bounding list the points, and which ones they list if they
are cut short, depends on the SAT solver. -/
theorem others_depend_on_oracle : Setting Example.line defaultBlockingClause {} (refEnv true) ∧
    Setting Example.line defaultBlockingClause {} revEnv ∧
    Example.pointsWith Example.line (refEnv true) .pMinimal {} Limits.none = some (true, [[3, 0], [1, 2], [2, 1], [0, 3]]) ∧
    Example.pointsWith Example.line revEnv .pMinimal {} Limits.none = some (true, [[3, 0], [2, 1], [1, 2], [0, 3]]) ∧
    Example.pointsWith Example.line (refEnv true) .lowerBounding {} { pps := some 3 } =
      some (false, [[1, 2], [2, 1], [3, 0]]) ∧
    Example.pointsWith Example.line revEnv .lowerBounding {} { pps := some 3 } = some (false, [[1, 2], [2, 1], [0, 3]]) :=
  ⟨Example.line_setting, Example.line_rev, by decide +kernel, by decide +kernel, by decide +kernel, by decide +kernel⟩

end Scuttle
