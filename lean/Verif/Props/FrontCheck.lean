import Verif.Props.CoreBoost
import Verif.Props.Resume
import Verif.Props.Front

/-!
# C44: the check of the front while it is collected
-/

namespace Scuttle

open Spec

section Check

variable {S : Type}

theorem extendChecked_fold (g : NonDomPoint S → Bool) (pts acc : List (NonDomPoint S)) :
    pts.foldlM (fun (acc : ParetoFront S) (p : NonDomPoint S) => if g p then none else some (acc ++ [p])) acc =
    if ∀ p ∈ pts, g p = false then some (acc ++ pts) else none := by
  induction pts generalizing acc with
  | nil => simp
  | cons p pts ih =>
    rw [List.foldlM_cons]
    cases hp : g p with
    | true => simp [hp]
    | false =>
      simp only [Bool.false_eq_true, if_false, Option.bind_eq_bind, Option.bind_some, ih]
      simp [hp]

/-- **C44.** With the check of the front turned on, adding points panics exactly if one of them has the costs of a point
that was in the front before, dominates such a point or is dominated by one. Otherwise the points are appended. -/
theorem extendChecked_spec (n : Nat) (f : ParetoFront S) (pts : List (NonDomPoint S))
    (hf : ∀ p ∈ f, p.costs.length = n) (hp : ∀ p ∈ pts, p.costs.length = n) :
    ((∀ p ∈ pts, ∀ q ∈ f, ¬ WeaklyDominates p.costs q.costs ∧ ¬ WeaklyDominates q.costs p.costs) →
      f.extendChecked pts = some (f ++ pts)) ∧
    ((∃ p ∈ pts, ∃ q ∈ f, WeaklyDominates p.costs q.costs ∨ WeaklyDominates q.costs p.costs) →
      f.extendChecked pts = none) := by
  have hrefl : ∀ v : List Int, WeaklyDominates v v := fun v => List.forall₂_same.2 fun _ _ => le_refl _
  have hbad : ∀ p ∈ pts, ((f.map NonDomPoint.costs).any (checkDominated p.costs) ||
      (f.map NonDomPoint.costs).contains p.costs) = true ↔
      ∃ q ∈ f, WeaklyDominates p.costs q.costs ∨ WeaklyDominates q.costs p.costs := by
    intro p hpp
    rw [Bool.or_eq_true, List.any_eq_true, List.contains_iff_mem]
    constructor
    · rintro (⟨c, hc, h⟩ | h)
      · obtain ⟨q, hq, rfl⟩ := List.mem_map.1 hc
        rw [checkDominated_iff _ _ ((hp p hpp).trans (hf q hq).symm)] at h
        exact ⟨q, hq, h.imp (·.1) (·.1)⟩
      · obtain ⟨q, hq, hqc⟩ := List.mem_map.1 h
        exact ⟨q, hq, .inl (by rw [hqc]; exact hrefl _)⟩
    · rintro ⟨q, hq, h⟩
      by_cases he : p.costs = q.costs
      · exact .inr (he ▸ List.mem_map.2 ⟨q, hq, rfl⟩)
      · exact .inl ⟨q.costs, List.mem_map.2 ⟨q, hq, rfl⟩,
          (checkDominated_iff _ _ ((hp p hpp).trans (hf q hq).symm)).2 (h.imp (⟨·, he⟩) (⟨·, Ne.symm he⟩))⟩
  unfold ParetoFront.extendChecked
  dsimp only
  rw [extendChecked_fold fun p => (f.map NonDomPoint.costs).any (checkDominated p.costs) ||
    (f.map NonDomPoint.costs).contains p.costs]
  constructor
  · intro h
    rw [if_pos]
    intro p hpp
    rw [← Bool.not_eq_true, hbad p hpp]
    rintro ⟨q, hq, hd⟩
    exact hd.elim (h p hpp q hq).1 (h p hpp q hq).2
  · rintro ⟨p, hpp, h⟩
    rw [if_neg]
    intro hall
    have := (hbad p hpp).2 h
    rw [hall p hpp] at this
    cases this

/-- A front with one point: an incomparable point is appended, a point with the same costs or a dominated one is refused.
Points that are added at once are not compared with each other. -/
example : ParetoFront.extendChecked [⟨[1, 4], [0]⟩] [⟨[2, 3], [0]⟩, ⟨[3, 3], [0]⟩] =
      some [⟨[1, 4], [0]⟩, ⟨[2, 3], [0]⟩, ⟨[3, 3], [0]⟩] ∧
    ParetoFront.extendChecked [⟨[1, 4], [0]⟩] [⟨[1, 4], [1]⟩] = none ∧
    ParetoFront.extendChecked [⟨[1, 4], [0]⟩] [⟨[1, 5], [1]⟩] = none ∧
    ParetoFront.extendChecked [⟨[1, 4], [0]⟩] [⟨[0, 4], [1]⟩] = none := by decide

/-- The points are added to an empty front one at a time, as `yield_solutions` does, with the check turned on. -/
def Spec.checkedRun (f : List (NonDomPoint S)) : Option (ParetoFront S) :=
  f.foldlM (fun (acc : ParetoFront S) (p : NonDomPoint S) => acc.extendChecked [p]) []

theorem checkedRun_append (f pts : List (NonDomPoint S)) (n : Nat) (hn : ∀ p ∈ f ++ pts, p.costs.length = n)
    (h : (f ++ pts).Pairwise fun p q => ¬ WeaklyDominates p.costs q.costs ∧ ¬ WeaklyDominates q.costs p.costs) :
    pts.foldlM (fun (acc : ParetoFront S) (p : NonDomPoint S) => acc.extendChecked [p]) f = some (f ++ pts) := by
  induction pts generalizing f with
  | nil => simp
  | cons p pts ih =>
    have h1 : ParetoFront.extendChecked f [p] = some (f ++ [p]) := by
      refine (extendChecked_spec n f [p] (fun q hq => hn q (by simp [hq])) (fun q hq => hn q (by
        rw [List.mem_singleton] at hq; simp [hq]))).1 fun q hq r hr => ?_
      rw [List.mem_singleton] at hq
      subst hq
      exact ((List.pairwise_append.1 h).2.2 r hr q (by simp)).symm
    rw [List.foldlM_cons, h1]
    have := ih (f ++ [p]) (by simpa using hn) (by simpa using h)
    simpa using this

end Check

theorem Spec.SoundFront.checkedRun {inst : Instance} {f : ParetoFront Assignment} (h : SoundFront inst f) :
    checkedRun f = some f := by
  refine checkedRun_append [] f (problem inst).objs.length ?_ ?_
  · intro p hp
    obtain ⟨s, -, hs⟩ := h.sound p (by simpa using hp)
    rw [← hs]; unfold Problem.costs; rw [List.length_map]
  · rw [List.nil_append]
    have hnd := List.pairwise_map.1 h.once
    refine List.Pairwise.imp_of_mem (fun {p q} hp hq hne => ?_) hnd
    obtain ⟨s, hs, hsp⟩ := h.sound p hp
    obtain ⟨t, ht, htq⟩ := h.sound q hq
    refine ⟨fun hd => ht.2 s hs.1 ?_, fun hd => hs.2 t ht.1 ?_⟩
    · rw [hsp, htq]; exact ⟨hd, hne⟩
    · rw [hsp, htq]; exact ⟨hd, Ne.symm hne⟩

variable {P C D : Type} [UbEnc P] [UbEnc C] [LawfulUbEnc P] [LawfulUbEnc C] [TotDb D] [LawfulTotDb D] [MergeEnc P C D]
  [LawfulMergeEnc P C D]
variable {env : Env} {s : Slv P C} {inst : Instance} {opts : KernelOptions} {bcg : Assignment → Clause} {limits : Limits}

omit [TotDb D] [LawfulTotDb D] [MergeEnc P C D] [LawfulMergeEnc P C D] in
/-- **C44.** The check of the front does not fail in a call to `solve` on a fresh solver, however the call ends. -/
theorem solve_check_passes (alg : Alg) (hs : Setting inst bcg opts env) (hl : LimitsFine env limits)
    (h0 : Started alg inst bcg opts s) (fuel : Nat) :
    checkedRun (alg.solve fuel limits env s).2.front = some (alg.solve fuel limits env s).2.front :=
  (front_sound alg hs hl h0 fuel).checkedRun

omit [TotDb D] [LawfulTotDb D] [MergeEnc P C D] [LawfulMergeEnc P C D] in
/-- **C44.** Nor does it fail in any sequence of calls without enumeration on a P-minimal or LowerBounding solver. -/
theorem calls_check_passes (alg : Alg) (halg : alg ≠ .biOptSat) (hs : Setting inst bcg opts env)
    (hno : opts.enumeration = .noEnum) (h0 : Started alg inst bcg opts s) (calls : List Call) (hc : CallsFine env calls) :
    checkedRun (alg.calls env calls s).2.front = some (alg.calls env calls s).2.front :=
  (repeated_solve_sound alg halg hs hno h0 calls hc).1.checkedRun

/-- **C44.** Nor does it fail in a call to `solve` after core boosting of a P-minimal or LowerBounding solver. -/
theorem boosted_check_passes (alg : Alg) (ha : alg ≠ .biOptSat) {cb : CbOptions} (hs : Setting inst bcg opts env)
    (hl : LimitsFine env limits) (nd : NoDupCores env) (hn : NoDupLits inst) (h0 : Started alg inst bcg opts s)
    (fuel fuel' : Nat) (hb : (coreBoost D fuel cb env s).1 = .ok true) :
    checkedRun (alg.solve fuel' limits env (coreBoost D fuel cb env s).2).2.front =
      some (alg.solve fuel' limits env (coreBoost D fuel cb env s).2).2.front :=
  (coreBoost_run_sound alg ha hs hl nd hn h0 fuel fuel' hb).1.checkedRun

/-- The front of a run of P-minimal with two points. -/
example : (Example.run .pMinimal {} Limits.none).any fun r => (checkedRun r.2).isSome && r.2.length == 2 := by
  decide +kernel

/-- **C44.** Resuming BiOptSat after the limit on points does make the check fail, since a point is reported twice. -/
theorem resume_check_fails_counterexample : ∃ s : Example.Solver,
    Started .biOptSat Example.inst defaultBlockingClause {} s ∧
    let s1 := Alg.biOptSat.solve 50 { pps := some 1 } (refEnv true) s
    let s2 := Alg.biOptSat.solve 50 Limits.none (refEnv true) s1.2
    s1.1 = .error (.terminated .ppLimit) ∧ s2.1 = .ok () ∧ checkedRun s2.2.front = none := by
  obtain ⟨s, h1, h2, h3, h4⟩ := Example.twoCalls_spec (alg := .biOptSat) (opts := {}) (l1 := { pps := some 1 })
    (l2 := Limits.none) (t := .ppLimit) (costs := [[0, 6], [0, 6], [3, 1]]) (by decide +kernel)
  refine ⟨s, h1, h2, h3, ?_⟩
  revert h4
  generalize (Alg.biOptSat.solve 50 Limits.none (refEnv true)
    (Alg.biOptSat.solve 50 { pps := some 1 } (refEnv true) s).2).2.front = f
  intro h4
  match f, h4 with
  | [p], h4 => simp at h4
  | p :: q :: f, h4 =>
    simp only [List.map_cons, List.cons.injEq] at h4
    obtain ⟨hp, hq, -⟩ := h4
    have e1 : ParetoFront.extendChecked [] [p] = some [p] := by simp [ParetoFront.extendChecked]
    have e2 : ParetoFront.extendChecked [p] [q] = none := by
      simp [ParetoFront.extendChecked, hp, hq]
    unfold checkedRun
    rw [List.foldlM_cons, e1]
    simp only [Option.bind_eq_bind, Option.bind_some]
    rw [List.foldlM_cons, e2]
    rfl

end Scuttle
