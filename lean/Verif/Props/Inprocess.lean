import Verif.Props.CoreBoost
import Verif.Proof.InproRun

/-!
# C56, C57: inprocessing

`D` is the type of totalizer databases; the theorems hold for every type that meets the contracts `LawfulTotDb` and
`LawfulInproDb`. MaxPre is a parameter.
-/

set_option linter.unusedSectionVars false

namespace Scuttle

open Spec

variable {P C D : Type} [UbEnc P] [UbEnc C] [LawfulUbEnc P] [LawfulUbEnc C] [TotDb D] [LawfulTotDb D] [MergeEnc P C D]
  [LawfulMergeEnc P C D] [InproDb D] [LawfulInproDb D]
variable {env : Env} {s : Slv P C} {inst : Instance} {opts : KernelOptions} {bcg : Assignment → Clause} {limits : Limits}

/-! ## C56 -/

theorem bind_congr_wp {α β : Type} {c : M P C α} {f g : α → M P C β} {Q : α → Slv P C → Prop} {E : Stop → Slv P C → Prop}
    (h : wp env c Q E s) (hfg : ∀ a s', Q a s' → f a env s' = g a env s') : M.bind c f env s = M.bind c g env s := by
  unfold wp at h
  unfold M.bind
  cases hr : c env s with
  | mk r s' =>
    rw [hr] at h
    cases r with
    | ok a => exact hfg a s' h
    | error e => rfl

theorem inprocess_congr {mp mp' : MaxPre} {res : List (Reform × D)} {s0 : Slv P C} (hwf : WellFormed inst)
    (hm : SameMaxPre inst mp mp') (h : BInv inst opts bcg env s0 res s) (hlen : res.length = inst.objs.length)
    (hcnf : s.k.opts.storeCnf = true → s.k.origCnf = some inst.clauses) :
    (inprocess mp res : M P C _) env s = inprocess mp' res env s := by
  cases hst : s.k.opts.storeCnf with
  | false =>
    unfold inprocess
    simp only [bind, M.bind, getS, hst]
    rfl
  | true =>
    have hst' := (h.collected hwf hlen).standsFor h hlen
    obtain ⟨h1, h2, h3⟩ := hm _ _ _ hst'
    unfold inprocess
    simp only [bind, M.bind, getS, hst, hcnf hst, unwrap, M.pure, modifyS, if_true, h1, h2, h3]

/-- C56: MaxPre is only ever run on instances that stand for the instance being solved. That is, a library that does
something else on other instances cannot be told apart by running core boosting with inprocessing on a fresh solver. -/
theorem inprocess_given_equivalent {alg : Alg} {mp mp' : MaxPre} (hs : Setting inst bcg opts env) (nd : NoDupCores env)
    (hn : NoDupLits inst) (h0 : Started alg inst bcg opts s) (fuel : Nat) (hm : SameMaxPre inst mp mp') :
    coreBoostInpro D alg mp fuel env s = coreBoostInpro D alg mp' fuel env s := by
  have hf := fresh_fine hs.wf (started_fresh h0)
  unfold coreBoostInpro
  simp only [bind, M.bind, getS, hf.calls, ne_eq, not_true_eq_false, if_false]
  refine bind_congr_wp (wp_kernelCoreBoost (fuel := fuel) hs nd hn (hf.binv (D := D))) ?_
  rintro r s1 ⟨hio1, hr⟩
  cases r with
  | none => rfl
  | some res =>
    obtain ⟨hb, hlen⟩ := hr
    refine bind_congr_wp (wp_checkTermination (n := inst.objs.length)
      (Q := fun _ s2 => BInv inst opts bcg env s res s2) (E := fun _ _ => True) hio1
      (fun s2 h2 hk2 hio2 _ => hb.same h2 hk2 hio2) (fun _ _ _ _ => trivial)) ?_
    intro _ s2 hb2
    have : (inprocess mp res : M P C _) env s2 = inprocess mp' res env s2 :=
      inprocess_congr hs.wf hm hb2 hlen fun hst => by
        rw [hb2.frame.origCnf]
        exact hf.cnf (by rw [← hst, hb2.frame.opts, hf.kopts])
    simp only [M.bind, this]

/-- C56: such instances have the Pareto front of the instance being solved. -/
theorem standsFor_front {F : List Clause} {S : List Softs} {offs : List Nat} (h : StandsFor inst F S offs) (v : List Int) :
    SoftNonDominated inst F S offs v ↔ (problem inst).NonDominated v := by
  have htr : ∀ {a b c : List Int}, WeaklyDominates a b → WeaklyDominates b c → WeaklyDominates a c := by
    intro a b c h1
    induction h1 generalizing c with
    | nil => exact fun h => h
    | cons h _ ih =>
      intro h2
      cases h2 with
      | cons h' h2 => exact .cons (Int.le_trans h h') (ih h2)
  have hanti : ∀ {a b : List Int}, WeaklyDominates a b → WeaklyDominates b a → a = b := by
    intro a b h1
    induction h1 with
    | nil => exact fun _ => rfl
    | cons h _ ih =>
      intro h2
      cases h2 with
      | cons h' h2 => rw [ih h2, Int.le_antisymm h h']
  constructor
  · rintro ⟨m, h1, rfl, h3⟩
    -- the costs of `m` are those by the soft clauses
    have heq : (problem inst).costs m = softCosts inst S offs m := by
      by_contra hne
      obtain ⟨m', -, a2, a3⟩ := h.attained m (h.feasible m h1)
      exact h3 m' a2 (by rw [a3]; exact ⟨h.over m h1, hne⟩)
    refine ⟨m, ⟨h.feasible m h1, fun t ht hd => ?_⟩, heq⟩
    obtain ⟨m', -, a2, a3⟩ := h.attained t ht
    exact h3 m' a2 (by rw [a3, ← heq]; exact hd)
  · rintro ⟨t, ⟨h1, h2⟩, rfl⟩
    obtain ⟨m, -, a2, a3⟩ := h.attained t h1
    refine ⟨m, a2, a3, fun m' hm' hd => ?_⟩
    rw [a3] at hd
    have hw := htr (h.over m' hm') hd.1
    refine h2 m' (h.feasible m' hm') ⟨hw, fun he => hd.2 ?_⟩
    exact hanti hd.1 (by rw [← he]; exact h.over m' hm')

/-! ## Examples for C56 -/

/-- MaxPre that changes nothing. -/
def Example.idMp : MaxPre where
  run F S := (F, S.map fun s => (s, 0))
  nClauses F _ := F.length
  nFixed _ _ := 0

/-- MaxPre that claims that there is no solution if there are not two objectives. -/
def Example.oddMp : MaxPre where
  run F S := (if S.length = 2 then F else [[]], S.map fun s => (s, 0))
  nClauses F _ := F.length
  nFixed _ _ := 0

/-- MaxPre that claims that there is no solution. -/
def Example.noMp : MaxPre where
  run _ S := ([[]], S.map fun s => (s, 0))
  nClauses F _ := F.length
  nFixed _ _ := 0

/-- Core boosting with inprocessing followed by `solve`, with the reference encodings; `none` if the solver cannot be
built. -/
def Example.inpro (inst : Instance) (env : Env) (alg : Alg) (mp : MaxPre) :
    Option (Except Stop Bool × List Nat × Except Stop Unit × ParetoFront Assignment) :=
  (alg.new (P := RefTot.RefTree 1) (C := RefTot.RefTree 0) inst defaultBlockingClause { storeCnf := true }).map fun s =>
    let r := coreBoostInpro RefTot alg mp 50 env s.attachLogger
    let r' := alg.solve 50 Limits.none env r.2
    (r.1, r.2.k.objs.map Objective.lowerBound, r'.1, r'.2.front)

/-- The hypotheses are met by two different libraries, and it matters what MaxPre returns for the instance. -/
example : SameMaxPre Example.inst Example.idMp Example.oddMp ∧
    Example.idMp.run [] [] ≠ Example.oddMp.run [] [] ∧
    Setting Example.inst defaultBlockingClause { storeCnf := true } (refEnv true) ∧ NoDupCores (refEnv true) ∧
    NoDupLits Example.inst := by
  refine ⟨fun F S offs h => ?_, by decide, Example.setting _, refEnv_noDupCores true, Example.noDupLits⟩
  have hl : S.length = 2 := h.len
  exact ⟨by simp [Example.idMp, Example.oddMp, hl], rfl, rfl⟩

example : Example.boosted [2, 0] [[3, 1], [0, 6]] (Example.inpro Example.inst refEnv .pMinimal Example.idMp) ∧
    Example.boosted [2, 0] [[3, 1], [0, 6]] (Example.inpro Example.inst refEnv .pMinimal Example.oddMp) ∧
    Example.boosted [2, 0] [] (Example.inpro Example.inst refEnv .pMinimal Example.noMp) := by decide +kernel

/-! ## C57 -/

/-- C57: if each objective has at least two values, and MaxPre keeps the models and only removes soft clauses that hold in
all models or in none: if core boosting with inprocessing of a fresh solver returns `Done(true)`, then `solve` finds exactly
the Pareto front, and does not panic. If it returns `Done(false)`, there is no solution. In general this does not hold,
see `inprocess_counterexample` and `inprocess_constant_counterexample`. -/
theorem inprocess_front_partial {alg : Alg} {mp : MaxPre} (hs : Setting inst bcg opts env) (hl : LimitsFine env limits)
    (nd : NoDupCores env) (hn : NoDupLits inst) (h0 : Started alg inst bcg opts s) (hm : MpKeeps inst mp) (hv : Varies inst)
    (fuel fuel' : Nat) :
    ((coreBoostInpro D alg mp fuel env s).1 = .ok false → ¬ ∃ t, (problem inst).Feasible t) ∧
    ((coreBoostInpro D alg mp fuel env s).1 = .ok true →
      ((alg.solve fuel' limits env (coreBoostInpro D alg mp fuel env s).2).1 = .ok () →
        ExactFront inst (alg.solve fuel' limits env (coreBoostInpro D alg mp fuel env s).2).2.front) ∧
      SoundFront inst (alg.solve fuel' limits env (coreBoostInpro D alg mp fuel env s).2).2.front ∧
      SolutionsOK inst (alg.solve fuel' limits env (coreBoostInpro D alg mp fuel env s).2).2.front ∧
      (alg.solve fuel' limits env (coreBoostInpro D alg mp fuel env s).2).1 ≠ .error .panic ∧
      (iterBound inst < fuel' → (alg.solve fuel' limits env (coreBoostInpro D alg mp fuel env s).2).1 ≠ .error .fuel)) := by
  have h := wp_coreBoostInpro (D := D) (fuel := fuel) (alg := alg) hs nd hn hm hv (fresh_fine hs.wf (started_fresh h0))
    (fun ha => by subst ha; exact started_bos h0)
  have hflat : NotFlat inst := by
    intro o ho hc
    obtain ⟨t, t', h1, h2, h3⟩ := hv o ho
    exact absurd (hc t t' h1 h2) h3
  unfold wp at h
  cases hr : coreBoostInpro D alg mp fuel env s with
  | mk r s1 =>
    rw [hr] at h
    simp only at h ⊢
    refine ⟨fun hf => ?_, fun ht => ?_⟩
    · subst hf
      exact h.2.1 rfl
    · subst ht
      obtain ⟨os, h1, h2, h3, h4⟩ := (h.2.2 rfl).run h.1.base alg hs hl h0 (fun _ => hflat) fuel'
      obtain ⟨cs, h5, -⟩ := h4.front
      refine ⟨fun hdone => ?_, ?_, ?_, h4.panic, fun hN h => ?_⟩
      · rw [hdone] at h4
        exact (h4.exactFront h3.unit).of_lb h1
      · have := h5.soundFront h3.unit
        exact ⟨by have := this.sound; rw [h1.problem] at this; exact this, this.once⟩
      · have := h5.solutionsOK
        exact ⟨this.some, by have := this.attain; rw [h1.problem] at this; exact this⟩
      · have := h4.fuel h
        omega

/-- MaxPre that removes the soft clauses that are also hard clauses. -/
def Example.dropMp : MaxPre where
  run F S := (F, S.map fun s => (s.filter fun p => decide (p.1 ∉ F), 0))
  nClauses F _ := F.length
  nFixed _ _ := 0

theorem Example.dropMp_keeps (inst : Instance) : MpKeeps inst Example.dropMp := by
  intro F S offs _
  refine ⟨fun m => Iff.rfl, fun c hc l hl => ⟨c, hc, l, hl, rfl⟩, ?_⟩
  simp only [Example.dropMp]
  rw [List.forall₂_map_right_iff, List.forall₂_same]
  intro Si _
  refine ⟨Si.filter fun p => !decide (p.1 ∉ F), [], ?_, ?_, by simp, by simp⟩
  · rw [List.append_nil]
    exact List.filter_append_perm _ _
  · intro p hp m hm c hc
    rw [List.mem_filter] at hp
    simp only [List.mem_singleton] at hc
    subst hc
    exact hm _ (by simpa using hp.2)

/-- Instance in which an objective has a literal that is always false. -/
def Example.capped : Instance where
  clauses := [[Lit.pos 1, Lit.pos 2], [(Lit.pos 3).not]]
  objs := [.unweighted 0 1 [Lit.pos 1, Lit.pos 3] 0 0, .unweighted 0 1 [Lit.pos 2] 1 0]
  vm := ⟨4, 3, 3⟩

theorem Example.capped_varies : Varies Example.capped := by
  have f1 : (problem Example.capped).Feasible (fun v => v == 1) := by
    intro c hc
    simp only [problem, Example.capped, List.mem_cons, List.not_mem_nil, or_false] at hc
    rcases hc with rfl | rfl
    · exact ⟨Lit.pos 1, by simp, rfl⟩
    · exact ⟨(Lit.pos 3).not, by simp, rfl⟩
  have f2 : (problem Example.capped).Feasible (fun v => v == 2) := by
    intro c hc
    simp only [problem, Example.capped, List.mem_cons, List.not_mem_nil, or_false] at hc
    rcases hc with rfl | rfl
    · exact ⟨Lit.pos 2, by simp, rfl⟩
    · exact ⟨(Lit.pos 3).not, by simp, rfl⟩
  intro o ho
  refine ⟨_, _, f1, f2, ?_⟩
  simp only [Example.capped, List.mem_cons, List.not_mem_nil, or_false] at ho
  rcases ho with rfl | rfl <;> decide

/-- The hypotheses are met: a library that removes a soft clause, and runs of all algorithms that find two points. -/
example : Setting Example.capped defaultBlockingClause { storeCnf := true } (refEnv true) ∧ NoDupLits Example.capped ∧
    MpKeeps Example.capped Example.dropMp ∧ Varies Example.capped := by
  refine ⟨⟨⟨by decide, by decide, by decide, by decide⟩, Example.fitsIsize_of_sum (by decide), ?_, .noEnum _, refEnv_correct true,
    fun h => by simp [refEnv] at h⟩, by unfold NoDupLits; decide, Example.dropMp_keeps _, Example.capped_varies⟩
  intro off w lits i lb h
  simp [Example.capped] at h
  omega

example : Example.boosted [0, 0] [[1, 0], [0, 1]] (Example.inpro Example.capped refEnv .pMinimal Example.dropMp) ∧
    Example.boosted [0, 0] [[1, 0], [0, 1]] (Example.inpro Example.capped refEnv .lowerBounding Example.dropMp) ∧
    Example.boosted [0, 0] [[0, 1], [1, 0]] (Example.inpro Example.capped refEnv .biOptSat Example.dropMp) := by decide +kernel

/-! ## C57: MaxPre that removes variables -/

/-- Literal of the first unit clause. -/
def Example.firstUnit : List Clause → Option Lit
  | [] => none
  | [l] :: _ => some l
  | _ :: F => Example.firstUnit F

/-- The clauses once `l` is true. -/
def Example.propLit (l : Lit) (F : List Clause) : List Clause :=
  (F.filter fun c => decide (l ∉ c)).map fun c => c.filter fun k => decide (k ≠ l.not)

/-- The soft clauses once `l` is true, and the weight of those that fail. -/
def Example.propSofts (l : Lit) : Softs → Softs × Nat
  | [] => ([], 0)
  | (c, w) :: S =>
    if l ∈ c then Example.propSofts l S
    else if c.filter (fun k => decide (k ≠ l.not)) = [] then ((Example.propSofts l S).1, (Example.propSofts l S).2 + w)
    else ((c.filter fun k => decide (k ≠ l.not), w) :: (Example.propSofts l S).1, (Example.propSofts l S).2)

/-- MaxPre that does one step of unit propagation, which removes the variable. -/
def Example.upMp : MaxPre where
  run F S := match Example.firstUnit F with
    | some l => (Example.propLit l F, S.map fun s => ((Example.propSofts l s).1, ((Example.propSofts l s).2 : Int)))
    | none => (F, S.map fun s => (s, 0))
  nClauses F _ := F.length
  nFixed _ _ := 0

theorem Example.firstUnit_mem {F : List Clause} {l : Lit} (h : Example.firstUnit F = some l) : [l] ∈ F := by
  induction F with
  | nil => simp [Example.firstUnit] at h
  | cons c F ih =>
    unfold Example.firstUnit at h
    split at h
    · simp at h
    · next he =>
      injection he with h1 h2
      subst h1
      simp only [Option.some.injEq] at h
      subst h
      simp
    · next he =>
      injection he with h1 h2
      subst h2
      exact List.mem_cons_of_mem _ (ih h)

theorem Example.prop_clause {m : Asg} {l : Lit} (hl : LitTrue m l) {c : Clause} (hc : l ∉ c) :
    (∃ k ∈ c, LitTrue m k) ↔ ∃ k ∈ c.filter (fun k => decide (k ≠ l.not)), LitTrue m k := by
  constructor
  · rintro ⟨k, h1, h2⟩
    refine ⟨k, List.mem_filter.2 ⟨h1, ?_⟩, h2⟩
    simp only [ne_eq, decide_eq_true_eq]
    rintro rfl
    unfold LitTrue Lit.not at h2
    unfold LitTrue at hl
    simp [hl] at h2
  · rintro ⟨k, h1, h2⟩
    exact ⟨k, (List.mem_filter.1 h1).1, h2⟩

theorem Example.prop_hard {m : Asg} {l : Lit} (hl : LitTrue m l) (F : List Clause) :
    Satisfies m F ↔ Satisfies m (Example.propLit l F) := by
  unfold Satisfies Example.propLit
  constructor
  · intro h c hc
    obtain ⟨c', h1, rfl⟩ := List.mem_map.1 hc
    obtain ⟨h1, h2⟩ := List.mem_filter.1 h1
    exact (Example.prop_clause hl (by simpa using h2)).1 (h c' h1)
  · intro h c hc
    by_cases hlc : l ∈ c
    · exact ⟨l, hlc, hl⟩
    · exact (Example.prop_clause hl hlc).2 (h _ (List.mem_map.2 ⟨c, List.mem_filter.2 ⟨hc, by simpa using hlc⟩, rfl⟩))

theorem Example.prop_soft {m : Asg} {l : Lit} (hl : LitTrue m l) (S : Softs) :
    softCost m S = (Example.propSofts l S).2 + softCost m (Example.propSofts l S).1 := by
  induction S with
  | nil => rfl
  | cons p S ih =>
    obtain ⟨c, w⟩ := p
    unfold Example.propSofts
    by_cases hlc : l ∈ c
    · have : ∃ k ∈ c, LitTrue m k := ⟨l, hlc, hl⟩
      simp only [softCost, if_pos hlc, if_pos this, ih, Nat.zero_add]
    · rw [if_neg hlc]
      have hc := Example.prop_clause hl hlc
      split
      · next he =>
        rw [he] at hc
        have : ¬ ∃ k ∈ c, LitTrue m k := by rw [hc]; simp
        simp only [softCost, if_neg this, ih]
        omega
      · simp only [softCost, ih]
        by_cases hk : ∃ k ∈ c, LitTrue m k
        · rw [if_pos hk, if_pos (hc.1 hk)]
          omega
        · rw [if_neg hk, if_neg (fun h => hk (hc.2 h))]
          omega

/-- The variable of `l` does not occur any more. -/
theorem Example.prop_free {l k : Lit} {c : Clause} (_hc : l ∉ c) (hk : k ∈ c.filter fun k => decide (k ≠ l.not)) : k.var ≠ l.var := by
  obtain ⟨h1, h2⟩ := List.mem_filter.1 hk
  simp only [ne_eq, decide_eq_true_eq] at h2
  intro hv
  obtain ⟨lv, ln⟩ := l
  obtain ⟨kv, kn⟩ := k
  simp only at hv
  subst hv
  cases ln <;> cases kn <;> simp_all [Lit.not]

/-- The assignment in which `l` is true. -/
def Example.setLit (m : Asg) (l : Lit) : Asg := fun v => if v = l.var then !l.neg else m v

theorem Example.setLit_lit (m : Asg) {l k : Lit} (h : k.var ≠ l.var) : LitTrue (Example.setLit m l) k ↔ LitTrue m k := by
  unfold LitTrue Example.setLit
  rw [if_neg h]

theorem Example.setLit_hard (m : Asg) (l : Lit) (F : List Clause) (h : Satisfies m (Example.propLit l F)) :
    Satisfies (Example.setLit m l) (Example.propLit l F) := by
  intro c hc
  obtain ⟨k, h1, h2⟩ := h c hc
  obtain ⟨c', h3, rfl⟩ := List.mem_map.1 hc
  have hf : l ∉ c' := by simpa using (List.mem_filter.1 h3).2
  exact ⟨k, h1, (Example.setLit_lit m (Example.prop_free hf h1)).2 h2⟩

theorem Example.setLit_soft (m : Asg) (l : Lit) (S : Softs) :
    softCost (Example.setLit m l) (Example.propSofts l S).1 = softCost m (Example.propSofts l S).1 := by
  induction S with
  | nil => rfl
  | cons p S ih =>
    obtain ⟨c, w⟩ := p
    unfold Example.propSofts
    by_cases hlc : l ∈ c
    · simp only [if_pos hlc, ih]
    · rw [if_neg hlc]
      split
      · exact ih
      · simp only [softCost, ih]
        have : (∃ k ∈ c.filter (fun k => decide (k ≠ l.not)), LitTrue (Example.setLit m l) k) ↔
            ∃ k ∈ c.filter (fun k => decide (k ≠ l.not)), LitTrue m k :=
          exists_congr fun k => and_congr_right fun hk => Example.setLit_lit m (Example.prop_free hlc hk)
        simp only [this]

theorem Example.softCosts_prop {m m' : Asg} {f : Softs → Softs × Int} (h : ∀ S, softCost m S = (f S).2.toNat + softCost m' (f S).1)
    (inst : Instance) (S : List Softs) (offs : List Nat) :
    softCosts inst S offs m = softCosts inst ((S.map f).map Prod.fst)
      (List.zipWith (fun k (r : Softs × Int) => k + r.2.toNat) offs (S.map f)) m' := by
  unfold softCosts
  generalize inst.objs = os
  induction os generalizing S offs with
  | nil => simp
  | cons o os ih =>
    cases S with
    | nil => simp
    | cons Si S =>
      cases offs with
      | nil => simp
      | cons k offs =>
        simp only [List.zip_cons_cons, List.zipWith_cons_cons, List.map_cons]
        rw [ih S offs, h Si, Nat.add_assoc]

/-- Unit propagation keeps the costs. -/
theorem Example.upMp_keeps (inst : Instance) : KeepsCosts inst Example.upMp := by
  intro F S offs v
  unfold Example.upMp
  simp only
  cases hu : Example.firstUnit F with
  | none =>
    simp only
    have : ∀ m, softCosts inst S offs m = _ := fun m =>
      Example.softCosts_prop (m := m) (m' := m) (f := fun s => (s, 0)) (fun S => by simp) inst S offs
    exact exists_congr fun m => and_congr_right fun _ => by rw [this]
  | some l =>
    simp only
    have hmem := Example.firstUnit_mem hu
    have hcost : ∀ m, LitTrue m l → softCosts inst S offs m = _ := fun m hl =>
      Example.softCosts_prop (m := m) (m' := m) (f := fun s => ((Example.propSofts l s).1, ((Example.propSofts l s).2 : Int)))
        (fun S => by simpa using Example.prop_soft hl S) inst S offs
    constructor
    · rintro ⟨m, h1, h2⟩
      have hl : LitTrue m l := by
        obtain ⟨k, hk, h⟩ := h1 _ hmem
        simp only [List.mem_singleton] at hk
        subst hk
        exact h
      exact ⟨m, (Example.prop_hard hl F).1 h1, by rw [← hcost m hl]; exact h2⟩
    · rintro ⟨m, h1, h2⟩
      have hl : LitTrue (Example.setLit m l) l := by unfold LitTrue Example.setLit; simp
      refine ⟨Example.setLit m l, (Example.prop_hard hl F).2 (Example.setLit_hard m l F h1), ?_⟩
      rw [← h2]
      exact Example.softCosts_prop (m := Example.setLit m l) (m' := m)
        (f := fun s => ((Example.propSofts l s).1, ((Example.propSofts l s).2 : Int)))
        (fun S => by simpa [Example.setLit_soft] using Example.prop_soft hl S) inst S offs

/-- Instance with a unit clause. -/
def Example.fixed : Instance where
  clauses := [[Lit.pos 0], [Lit.pos 1, Lit.pos 2]]
  objs := [.unweighted 0 1 [Lit.pos 0, Lit.pos 1] 0 0, .unweighted 0 1 [Lit.pos 2] 1 0]
  vm := ⟨3, 2, 2⟩

/-- C57 does not hold in general: the costs of a model are computed without reconstructing the values of the variables
that MaxPre has removed. With one step of unit propagation, all algorithms return `Done` with the costs `[1, 0]`, which no
feasible assignment has. -/
theorem inprocess_counterexample : ∃ (inst : Instance) (mp : MaxPre),
    (∀ debug, Setting inst defaultBlockingClause { storeCnf := true } (refEnv debug)) ∧ NoDupLits inst ∧ KeepsCosts inst mp ∧
    (∀ t, (problem inst).Feasible t → (problem inst).costs t ≠ [1, 0]) ∧
    ∀ alg, Example.boosted [1, 0] [[1, 0]] (Example.inpro inst refEnv alg mp) := by
  refine ⟨Example.fixed, Example.upMp, fun debug => ⟨⟨by decide, by decide, by decide, by decide⟩,
    Example.fitsIsize_of_sum (by decide), ?_, .noEnum _, refEnv_correct debug, fun h => by simp [refEnv] at h⟩,
    by unfold NoDupLits; decide, Example.upMp_keeps _, fun t ht hc => ?_, fun alg => ?_⟩
  · intro off w lits i lb h
    simp [Example.fixed] at h
    omega
  · have h1 := ht [Lit.pos 0] (by simp [problem, Example.fixed])
    have h2 := ht [Lit.pos 1, Lit.pos 2] (by simp [problem, Example.fixed])
    simp only [List.mem_cons, List.not_mem_nil, or_false, exists_eq_left, exists_eq_or_imp] at h1 h2
    simp only [problem, Problem.costs, Example.fixed, List.map_cons, List.map_nil, objValue, linear, Objective.iter] at hc
    by_cases a1 : LitTrue t (Lit.pos 1) <;> by_cases a2 : LitTrue t (Lit.pos 2) <;> simp_all
  · cases alg <;> decide +kernel

/-- Core boosting with inprocessing panicked. -/
def Example.failed : Option (Except Stop Bool × List Nat × Except Stop Unit × ParetoFront Assignment) → Bool
  | some (.error .panic, _) => true
  | _ => false

/-- C57 does not hold in general, not even if MaxPre does nothing: an objective for which no soft clause is left gets no
encoding, so that the encodings are not those of their objectives any more. P-minimal and LowerBounding then panic in
`solve`, and BiOptSat panics in core boosting. Without inprocessing, the only point is found. -/
theorem inprocess_constant_counterexample : ∃ inst : Instance,
    (∀ debug, Setting inst defaultBlockingClause { storeCnf := true } (refEnv debug)) ∧ NoDupLits inst ∧
    MpKeeps inst Example.idMp ∧ (∀ debug, Example.stuck .panic (Example.inpro inst (refEnv debug) .pMinimal Example.idMp)) ∧
    (∀ debug, Example.stuck .panic (Example.inpro inst (refEnv debug) .lowerBounding Example.idMp)) ∧
    (∀ debug, Example.failed (Example.inpro inst (refEnv debug) .biOptSat Example.idMp)) ∧
    Example.boosted [1, 0] [[1, 0]] (Example.boost inst (refEnv true) .pMinimal {} {}) := by
  refine ⟨Example.flat, fun debug => ⟨⟨by decide, by decide, by decide, by decide⟩,
    Example.fitsIsize_of_sum (by decide), ?_, .noEnum _, refEnv_correct debug, fun h => by simp [refEnv] at h⟩, by unfold NoDupLits; decide,
    fun F S offs _ => ⟨fun m => Iff.rfl, fun c hc l hl => ⟨c, hc, l, hl, rfl⟩, ?_⟩, fun debug => ?_, fun debug => ?_, fun debug => ?_,
    by decide +kernel⟩
  · intro off w lits i lb h
    simp [Example.flat] at h
    omega
  · simp only [Example.idMp]
    rw [List.forall₂_map_right_iff, List.forall₂_same]
    exact fun Si _ => ⟨[], [], by simp, by simp, by simp, by simp⟩
  · cases debug <;> decide +kernel
  · cases debug <;> decide +kernel
  · cases debug <;> decide +kernel

end Scuttle
