import Verif.Proof.CoreBoost
import Verif.Proof.CbFrame

/-!
# The ideal point in the log
-/

set_option linter.unusedSectionVars false

namespace Scuttle

open Spec

variable {P C D : Type} [UbEnc P] [UbEnc C] [TotDb D] [MergeEnc P C D]
variable [LawfulUbEnc P] [LawfulUbEnc C] [LawfulTotDb D] [LawfulMergeEnc P C D]
variable {env : Env} {s : Slv P C} {inst : Instance} {opts : KernelOptions} {bcg : Assignment → Clause}
variable {f0 : ParetoFront Assignment} {n0 : Nat} {lg : Bool} {fs : List (List Nat)} {fuel : Nat}

theorem lb_externalCost {o o' : Objective} (h : o'.setLowerBound 0 = o.setLowerBound 0) (x : Nat) :
    externalCost o' x = externalCost o x := by
  cases o <;> cases o' <;> simp_all [Objective.setLowerBound, externalCost]

/-- The offsets of the reformulations are the least values. -/
theorem BInv.ideal {s0 : Slv P C} {res : List (Reform × D)} (hs : Setting inst bcg opts env)
    (h : BInv inst opts bcg env s0 res s) (hlen : res.length = inst.objs.length) :
    IsIdeal inst (res.map fun p => p.1.offset) := by
  have hfs : ∀ t, (problem inst).Feasible t ↔ (pbAt inst opts bcg s).Sol t := fun t => feasible_iff (opts := opts) (bcg := bcg) t
  have hentry : ∀ (i : Nat) (o : Objective) (x : Nat), inst.objs[i]? = some o → (res.map fun p => p.1.offset)[i]? = some x →
      ∃ (o' : Objective) (r : Reform) (d : D), Entry (pbAt inst opts bcg s) o' r d s ∧ o'.setLowerBound 0 = o.setLowerBound 0 ∧ r.offset = x := by
    intro i o x ho hx
    simp only [List.getElem?_map, Option.map_eq_some_iff] at hx
    obtain ⟨⟨r, d⟩, hr, rfl⟩ := hx
    have hlt : i < s.k.objs.length := by
      rw [h.rel.length, ← hlen]
      exact (List.getElem?_eq_some_iff.1 hr).1
    obtain ⟨o1, ho1, he⟩ := h.rel.get (List.getElem?_eq_getElem hlt)
    rw [ho, Option.some.injEq] at ho1
    subst ho1
    exact ⟨_, r, d, h.each i r d _ hr (List.getElem?_eq_getElem hlt), he, rfl⟩
  refine ⟨fun _ => by rw [List.length_map, hlen], fun i o x ho hx t ht => ?_, fun i o x ho hx hex => ?_⟩
  · obtain ⟨o', r, d, h1, h2, rfl⟩ := hentry i o x ho hx
    have h3 := h1.lower t ((hfs t).1 ht)
    rw [lb_icost h2] at h3
    rw [objValue_external]
    cases o with
    | weighted => simp only [externalCost]; omega
    | unweighted off w lits i b =>
      simp only [externalCost]
      have := Nat.mul_le_mul_right w h3
      omega
    | constant => exact Int.le_refl _
  · obtain ⟨o', r, d, h1, h2, rfl⟩ := hentry i o x ho hx
    obtain ⟨t, h3, h4⟩ := h1.opt (.inr (by obtain ⟨t, ht⟩ := hex; exact ⟨t, (hfs t).1 ht⟩))
    refine ⟨t, (hfs t).2 h3, ?_⟩
    rw [objValue_external, ← lb_icost h2, h4]

/-- In the log there are only right ideal points. -/
def IdealI (inst : Instance) (f0 : ParetoFront Assignment) (n0 : Nat) (lg : Bool) (fs : List (List Nat)) (d : Nat)
    (s : Slv P C) : Prop := ∃ is, (∀ p ∈ is, IsIdeal inst p) ∧ CbI f0 n0 lg False fs (some is) d s

theorem wp_idealKernel (hs : Setting inst bcg opts env) (nd : NoDupCores env) (hlits : NoDupLits inst) {s0 : Slv P C}
    (h : BInv inst opts bcg env s0 ([] : List (Reform × D)) s) (hc : CbI f0 n0 lg False fs (some []) 0 s) :
    wp env (kernelCoreBoost D fuel) (fun _ => IdealI inst f0 n0 lg fs 0) (fun _ s => ∃ d, IdealI inst f0 n0 lg fs d s) s := by
  have hnil : ∀ {d} {s : Slv P C}, CbI f0 n0 lg False fs (some []) d s → ∃ d, IdealI inst f0 n0 lg fs d s :=
    fun {d s} h => ⟨d, [], by simp, h⟩
  unfold kernelCoreBoost
  rw [wp_bind]
  refine wp_both (wp_cbStart _ hc) ?_
  unfold logRoutineStart logRoutineEnd
  refine wp_logEvent _ h.io (fun s1 h1 hk1 hio1 hc1 => ?_) (fun e s' _ _ ⟨_, h⟩ => hnil h)
  have hb := h.same h1 hk1 hio1
  rw [wp_bind, wp_getS, wp_bind, hio1.base.1]
  refine wp_both (cbk_coreBoostLoop _ _ _ _ _ s1 hc1) ?_
  refine wp_mono (wp_coreBoostLoop hs nd hlits inst.objs.length [] hb (by simp)) ?_ (fun _ _ _ ⟨_, h⟩ => hnil h)
  rintro ⟨acc, found⟩ s2 ⟨hio2, hf, ht, -⟩ hc2
  have hid : IsIdeal inst (acc.map fun p => p.1.offset) := by
    cases found with
    | true =>
      have hno := hf rfl
      exact ⟨fun h => absurd h hno, fun _ _ _ _ _ t ht => absurd ⟨t, ht⟩ hno, fun _ _ _ _ _ h => absurd h hno⟩
    | false =>
      obtain ⟨h5, h6⟩ := ht rfl
      exact h5.ideal hs (by simpa using h6)
  rw [wp_bind]
  refine wp_mono (wp_cbEnd hc2) (fun _ s3 hc3 => ?_) (fun _ _ ⟨_, h⟩ => hnil h)
  rw [wp_bind]
  refine wpio_logEvent (fun s4 a1 _ _ a4 _ a6 => ?_) (fun s4 a1 _ _ a4 _ a6 _ => ?_)
  · rw [wp_pure]
    refine ⟨[acc.map fun p => p.1.offset], by simpa using hid, by rw [a1, hc3.front], by rw [a4, hc3.calls], fun l hl => ?_, by
      rw [a6, Option.isSome_map]; exact hc3.has, False.elim⟩
    rw [a6, Option.map_eq_some_iff] at hl
    obtain ⟨l', hl', rfl⟩ := hl
    obtain ⟨b1, b2, b3, b4⟩ := hc3.log l' hl'
    refine ⟨b1.append (.other _ (by simp) (by simp)), by rw [fences_snoc (by simp)]; exact b2, ?_, noCost_snoc (by trivial) b4⟩
    intro x hx
    cases hx
    have := b3 [] rfl
    unfold ideals at this ⊢
    rw [List.filterMap_append, this]
    rfl
  · exact hnil ⟨by rw [a1, hc3.front], by rw [a4, hc3.calls], by rw [a6]; exact hc3.log, by rw [a6]; exact hc3.has, False.elim⟩

theorem wp_idealBoost {cb : CbOptions} (hs : Setting inst bcg opts env) (nd : NoDupCores env) (hlits : NoDupLits inst)
    (h : Fine inst opts bcg s) (hc : CbI f0 n0 lg False fs (some []) 0 s) :
    wp env (coreBoost D fuel cb) (fun _ => IdealI inst f0 n0 lg fs 0) (fun _ s => ∃ d, IdealI inst f0 n0 lg fs d s) s := by
  unfold coreBoost
  rw [wp_bind, wp_getS]
  split
  · exact ⟨0, [], by simp, hc⟩
  · rw [wp_bind]
    refine wp_mono (wp_idealKernel hs nd hlits h.binv hc) (fun r s1 h1 => ?_) (fun _ _ h => h)
    obtain ⟨is, h2, h3⟩ := h1
    cases r with
    | none => exact ⟨is, h2, h3⟩
    | some res =>
      exact wp_mono (cbk_afterBoost cb res 0 s1 h3) (fun _ s2 h4 => ⟨is, h2, h4⟩) (fun _ s2 ⟨d, h4⟩ => ⟨d, is, h2, h4⟩)

end Scuttle
