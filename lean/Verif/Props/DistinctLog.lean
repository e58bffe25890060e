import Verif.Proof.DistinctLog
import Verif.SpecDistinct
import Verif.Props.CandLog

/-!
# C71: P-minimal and lower-bounding do not consider a candidate twice
-/

set_option linter.unusedSectionVars false

namespace Scuttle

open Spec

variable {P C D : Type} [UbEnc P] [UbEnc C] [TotDb D] [MergeEnc P C D]
variable [LawfulUbEnc P] [LawfulUbEnc C] [LawfulTotDb D] [LawfulMergeEnc P C D]
variable {env : Env} {s : Slv P C} {inst : Instance} {opts : KernelOptions} {bcg : Assignment → Clause}

/-- The invariant between calls. -/
def DBase (n : Nat) (os : List Objective) (s : Slv P C) : Prop :=
  ∃ y : DCtx, y.objs = os ∧ y.n = n ∧ y.ex = False ∧ DInv (y.upd (fun _ => True) []) s

theorem DEnd.base {y : DCtx} (h : DEnd y s) (hx : y.ex = False) : DBase y.n y.objs s := by
  obtain ⟨L, -, h⟩ := h
  exact ⟨{ y with pre := y.pre ++ L }, rfl, rfl, hx, h.db, h.objs, h.next, h.below, h.opts, h.enc, fun l hl => by
    rw [h.log l hl]; exact (List.append_nil _).symm⟩

theorem DBase.ok {x : CandCtx} {y : DCtx} (ok : CandOK env x) (h1 : y.objs = x.objs) (h2 : y.n = x.n) (h3 : y.ex = False) :
    CandOK env y.toCandCtx where
  orc := ok.orc
  pos := by rw [h2]; exact ok.pos
  vars := by rw [h1, h2]; exact ok.vars
  tok := by rw [h1]; exact ok.tok
  sep := fun h => by rw [h3] at h; exact h.elim

theorem DBase.calls {x : CandCtx} (ok : CandOK env x) {alg : Alg} (ha : alg ≠ .biOptSat) (cs : List Call) :
    ∀ {s : Slv P C}, DBase x.n x.objs s → DBase x.n x.objs (alg.calls env cs s).2 := by
  induction cs with
  | nil => exact fun h => h
  | cons c cs ih =>
    intro s h
    obtain ⟨y, h1, h2, h3, hi⟩ := h
    cases c with
    | solve fuel limits =>
      refine ih ?_
      have := (ds_solve (DBase.ok ok h1 h2 h3) ha fuel limits hi).base h3
      rw [h1, h2] at this
      exact this
    | attachLogger =>
      refine ih (s := s.attachLogger) ⟨{ y with pre := [] }, h1, h2, h3, hi.db, hi.objs, hi.next, hi.below, hi.opts, hi.enc,
        fun l hl => ?_⟩
      cases hl; rfl
    | detachLogger =>
      refine ih (s := s.detachLogger) ⟨y, h1, h2, h3, hi.db, hi.objs, hi.next, hi.below, hi.opts, hi.enc, fun l hl => ?_⟩
      cases hl

theorem mem_box {os : List Objective} {m : Asg} {c : List Nat} (h : VLe c (os.map (icost · m))) :
    c ∈ boxList (os.map fun o => maxCost o + 1) := by
  induction os generalizing c with
  | nil => cases h; simp [boxList]
  | cons o os ih =>
    cases h with
    | cons h1 h2 =>
      simp only [List.map_cons, boxList, List.mem_flatMap, List.mem_range, List.mem_map]
      exact ⟨_, Nat.lt_succ_of_le (Nat.le_trans h1 (icost_le_maxCost o m)), _, ih h2, rfl⟩

theorem fresh_length {os : List Objective} {L : List (List Nat)} (h : DFresh os L) : L.length ≤ costVectors os := by
  have : costVectors os = (boxList (os.map fun o => maxCost o + 1)).length := by rw [length_boxList]; rfl
  rw [this]
  refine (List.subperm_of_subset ?_ fun c hc => ?_).length_le
  · exact h.apart.imp fun hn he => hn (by rw [he]; exact VLe.refl _)
  · obtain ⟨m, hm⟩ := h.box c hc
    exact mem_box hm

/-- The call after the given ones. -/
theorem calls_apart {os : List Objective} {A : Asg → Prop} (hs : Setting inst bcg opts env) (hf : LbOnly inst.objs os)
    (h : DBInv ((inst.withObjs os).pb opts bcg) A s) (hl : ∀ l, s.io.logger = some l → ∀ e ∈ l, e.NoCost) {alg : Alg}
    (ha : alg ≠ .biOptSat) (cs : List Call) (fuel : Nat) (limits : Limits) {l l' : List LogEvent}
    (hlog : (alg.calls env cs s).2.io.logger = some l)
    (hlog' : (alg.solve fuel limits env (alg.calls env cs s).2).2.io.logger = some l') :
    ∃ new, (candidates l').map Prod.fst = (candidates l).map Prod.fst ++ new ∧ NoRepeat new ∧
      new.length ≤ costVectors inst.objs := by
  have ok := candOK hs hf
  have h0 : DBase (inst.vm.maxEncVar + 1) os s := by
    refine ⟨⟨⟨fun _ => True, os, inst.vm.maxEncVar + 1, False⟩, s.k.opts, [], []⟩, rfl, rfl, rfl, fun _ _ => trivial, h.objs, h.next,
      h.below, rfl, h.encSound, fun l hl1 => ?_⟩
    have hnil : candidates l = [] := by
      unfold candidates
      rw [List.filterMap_eq_nil_iff]
      intro e he
      have := hl l hl1 e he
      cases e <;> first | exact this.elim | rfl
    rw [hnil]; rfl
  obtain ⟨y, h1, h2, h3, hi⟩ := DBase.calls ok ha cs h0
  obtain ⟨L, hfr, hd⟩ := ds_solve (DBase.ok ok h1 h2 h3) ha fuel limits hi
  rw [h1] at hfr
  have hlen := fresh_length hfr
  refine ⟨L, ?_, hfr.apart, ?_⟩
  · rw [hd.log _ hlog', hi.log _ hlog]
    exact congrArg (· ++ L) (List.append_nil _).symm
  · have : costVectors os = costVectors inst.objs := by
      unfold costVectors
      congr 1
      apply List.ext_getElem?
      intro i
      rw [List.getElem?_map, List.getElem?_map]
      cases ho : os[i]? with
      | none =>
        have : inst.objs[i]? = none := by
          rw [List.getElem?_eq_none_iff] at ho ⊢
          rw [← hf.length]; exact ho
        rw [this]
      | some o' =>
        obtain ⟨o, g1, g2⟩ := hf.get ho
        rw [g1]
        simp only [Option.map_some, lb_iter g2]
    rw [← this]
    exact hlen

/-! ## The theorems -/

/-- C71: whatever calls have been made on a fresh solver, no candidate that the next call logs is weakly dominated by an
earlier candidate of the same call, with whatever limits and however the call ends. In particular, no cost vector is a
candidate twice, and there are at most as many candidates as vectors of internal costs. -/
theorem candidates_not_repeated {alg : Alg} (ha : alg ≠ .biOptSat) (hs : Setting inst bcg opts env)
    (h0 : Started alg inst bcg opts s) (cs : List Call) (fuel : Nat) (limits : Limits) {l l' : List LogEvent}
    (hlog : (alg.calls env cs s).2.io.logger = some l)
    (hlog' : (alg.solve fuel limits env (alg.calls env cs s).2).2.io.logger = some l') :
    ∃ new, (candidates l').map Prod.fst = (candidates l).map Prod.fst ++ new ∧ NoRepeat new ∧
      new.length ≤ costVectors inst.objs :=
  calls_apart hs (.refl _) (started_prepared hs.wf h0).core.inv (fun l h => by
    rcases started_logger h0 with h' | h' <;> rw [h'] at h <;> cases h
    simp) ha cs fuel limits hlog hlog'

/-- C71: the same after core boosting. -/
theorem candidates_not_repeated_boosted {alg : Alg} {cb : CbOptions} {fuel : Nat} (ha : alg ≠ .biOptSat)
    (hs : Setting inst bcg opts env) (nd : NoDupCores env) (hn : NoDupLits inst) (h0 : Started alg inst bcg opts s)
    (hb : (coreBoost D fuel cb env s).1 = .ok true) (cs : List Call) (fuel' : Nat) (limits : Limits) {l l' : List LogEvent}
    (hlog : (alg.calls env cs (coreBoost D fuel cb env s).2).2.io.logger = some l)
    (hlog' : (alg.solve fuel' limits env (alg.calls env cs (coreBoost D fuel cb env s).2).2).2.io.logger = some l') :
    ∃ new, (candidates l').map Prod.fst = (candidates l).map Prod.fst ++ new ∧ NoRepeat new ∧
      new.length ≤ costVectors inst.objs := by
  obtain ⟨h1, -, -⟩ := boosted_of_ok hs nd hn h0 hb
  exact calls_apart hs h1.rel h1.core.inv (coreBoost_noCost (D := D) (env := env) h0 fuel cb) ha cs fuel' limits hlog hlog'

/-! ## Examples -/

/-- Four solutions with costs (4, 0), (3, 2), (2, 0) and (0, 3); the last variable is the conjunction of the others. -/
def Example.again : Instance where
  clauses := [[(Lit.pos 2).not, Lit.pos 0], [(Lit.pos 2).not, Lit.pos 1], [Lit.pos 2, (Lit.pos 0).not, (Lit.pos 1).not]]
  objs := [.weighted 0 [((Lit.pos 0).not, 2), ((Lit.pos 1).not, 1), ((Lit.pos 2).not, 1)] 0 0,
    .weighted 0 [(Lit.pos 1, 2), (Lit.pos 2, 1)] 1 0]
  vm := ⟨3, 2, 2⟩

theorem Example.again_setting : Setting Example.again defaultBlockingClause {} (refEnv true) where
  wf := ⟨by decide, by decide, by decide, by decide⟩
  fits := Example.fitsIsize_of_sum (by decide)
  unit := by
    intro off w lits i lb h
    simp [Example.again] at h
  enum := .noEnum _
  oracle := refEnv_correct true
  tight h := by simp [refEnv] at h

/-- The candidates in the log after calls on a solver. -/
def Example.cands (inst : Instance) (alg : Alg) (opts : KernelOptions) (cs : List Call) : Option (List (List Nat)) :=
  (alg.new (P := RefEnc 1) (C := RefEnc 0) inst defaultBlockingClause opts).bind fun s =>
    (alg.calls (refEnv true) (.attachLogger :: cs) s).2.io.logger.map fun l => (candidates l).map Prod.fst

/-- Some of the candidates are dominated by later ones, but none by an earlier one. -/
example : Example.cands Example.again .pMinimal {} [.solve 50 Limits.none] = some [[4, 0], [2, 0], [0, 3]] ∧
    Example.cands Example.again .pMinimal { enumeration := .solutions none } [.solve 50 Limits.none] =
      some [[4, 0], [2, 0], [0, 3]] ∧
    Example.cands Example.again .lowerBounding {} [.solve 50 Limits.none] = some [[2, 0], [0, 3]] ∧
    NoRepeat [[4, 0], [2, 0], [0, 3]] ∧ costVectors Example.again.objs = 20 :=
  ⟨by decide +kernel, by decide +kernel, by decide +kernel, by unfold NoRepeat; decide, by decide⟩

/-- The claim is about one call: a call that continues one that was cut short may find the last candidates again. -/
example : Example.cands Example.again .pMinimal {} [.solve 50 { candidates := some 2 }, .solve 50 Limits.none] =
    some [[4, 0], [2, 0], [3, 2], [2, 0], [0, 3]] := by decide +kernel

/-- C71: BiOptSat may consider candidates again, as its bounds only exclude values of the second objective. In a completed
call, two cost vectors are candidates twice, and one of them is dominated by the candidate before it. -/
theorem bioptsat_candidates_repeated : Setting Example.again defaultBlockingClause {} (refEnv true) ∧
    Example.cands Example.again .biOptSat {} [.solve 50 Limits.none] = some [[3, 2], [2, 0], [0, 3], [3, 2], [2, 0]] ∧
    ¬ NoRepeat [[3, 2], [2, 0], [0, 3], [3, 2], [2, 0]] :=
  ⟨Example.again_setting, by decide +kernel, by unfold NoRepeat; decide⟩

end Scuttle
