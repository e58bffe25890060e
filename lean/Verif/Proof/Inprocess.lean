import Verif.Proof.Collect
import Verif.SpecInpro

/-!
# Rules for inprocessing
-/

set_option linter.unusedSectionVars false

namespace Scuttle

open Spec

variable {P C D : Type} [UbEnc P] [UbEnc C] [LawfulUbEnc P] [LawfulUbEnc C] [TotDb D] [LawfulTotDb D] [InproDb D]
  [LawfulInproDb D]
variable {env : Env} {s s' : Slv P C} {inst : Instance} {opts : KernelOptions} {bcg : Assignment → Clause}
  {E : Stop → Slv P C → Prop}

open TotSem (Node Inner cnt Sound Exact Below Inputs Base IsOut)

/-! ## Costs by the soft clauses -/

theorem satisfies_iff (m : Asg) (F : List Clause) : Satisfies m F ↔ cnfEval m F = true := by
  unfold Satisfies cnfEval clauseEval
  simp [List.all_eq_true, List.any_eq_true, Lit.eval_iff]

/-- Value of a literal as a number. -/
def boolV (m : Asg) (l : Lit) : Nat := if l.eval m = true then 1 else 0

theorem softCost_softOf (m : Asg) (K : List (Lit × Nat)) : softCost m (K.map softOf) = wsum (boolV m) K := by
  induction K with
  | nil => rfl
  | cons p K ih =>
    obtain ⟨l, w⟩ := p
    rw [List.map_cons]
    simp only [softOf, softCost, ih, wsum, List.map_cons, List.sum_cons, boolV]
    congr 1
    by_cases hl : l.eval m = true <;> simp [hl, ← Lit.eval_iff, Lit.eval_not]

theorem wsum_le {f g : Lit → Nat} {I : List (Lit × Nat)} (h : ∀ p ∈ I, f p.1 ≤ g p.1) : wsum f I ≤ wsum g I := by
  induction I with
  | nil => exact Nat.le_refl _
  | cons p I ih =>
    have h1 := h p (by simp)
    have h2 := ih fun q hq => h q (by simp [hq])
    simp only [wsum, List.map_cons, List.sum_cons] at h2 ⊢
    have := Nat.mul_le_mul_left p.2 h1
    omega

variable {n0 : Nat} {d : D} {I K : List (Lit × Nat)} {R : List (Lit × ReformData)} {c : Coll D}

theorem Items.over (h : Items n0 d I R c K) {m : Asg} (hm : Sound c.db m) : ∀ p ∈ K, litV c.db c.outs m p.1 ≤ boolV m p.1 := by
  rintro ⟨l, w⟩ hp
  unfold litV boolV
  rcases h.item l w hp with ⟨h1, -⟩ | ⟨rd, h1, h2, -⟩
  · rw [h1]
  · rw [h1]
    simp only
    split
    · next hlt => rw [if_pos (LawfulTotDb.out_sound _ _ _ _ _ h2 hm hlt)]
    · exact Nat.zero_le _

theorem Items.eq (h : Items n0 d I R c K) {m : Asg} (hm : Sound c.db m) (he : Exact c.db m) :
    ∀ p ∈ K, litV c.db c.outs m p.1 = boolV m p.1 := by
  rintro ⟨l, w⟩ hp
  refine Nat.le_antisymm (h.over hm _ hp) ?_
  unfold litV boolV
  rcases h.item l w hp with ⟨h1, -⟩ | ⟨rd, h1, h2, -⟩
  · rw [h1]
  · rw [h1]
    simp only
    split
    · next hlt => rw [if_pos (LawfulTotDb.out_exact _ _ _ _ _ h2 he hlt)]
    · exact Nat.zero_le _

theorem Items.agree (h : Items n0 d I R c K) (hi : Inputs c.db n0) {t m : Asg} (ha : AgreeBelow n0 t m) :
    ∀ p ∈ K, litV c.db c.outs t p.1 = litV c.db c.outs m p.1 := by
  rintro ⟨l, w⟩ hp
  unfold litV
  rcases h.item l w hp with ⟨h1, h2⟩ | ⟨rd, h1, h2, -⟩
  · rw [h1]
    simp only [Lit.eval_agree ha h2]
  · rw [h1]
    simp only
    rw [LawfulTotDb.cnt_local _ _ _ _ _ hi (LawfulTotDb.out_node _ _ _ _ h2) ha]

/-- The value of an objective in terms of the items. -/
theorem Items.icost {pb : Pb} {o : Objective} {off : Nat} (h : Items pb.n0 d I R c K) (hm : MergeOK pb o d I R off) {t : Asg}
    (ht : pb.Sol t) : icost o t = off + wsum (litV c.db c.outs t) K := by rw [hm.sumVal ht, h.val]

/-! ## The instance for MaxPre stands for the problem -/

theorem BInv.before {s0 : Slv P C} {res : List (Reform × D)} (h : BInv inst opts bcg env s0 res s)
    (hlen : res.length = inst.objs.length) : ∀ p ∈ res, Before (pbAt inst opts bcg s) s.k.vm.nextVar p := by
  intro p hp
  obtain ⟨j, hj⟩ := List.mem_iff_getElem?.1 hp
  have hlt : j < s.k.objs.length := by rw [h.rel.length, ← hlen]; exact (List.getElem?_eq_some_iff.1 hj).1
  have he := h.each j p.1 p.2 _ hj (List.getElem?_eq_getElem hlt)
  exact ⟨⟨_, he.merge⟩, h.refs p hp, he.below, he.inputs⟩

/-- Facts on what is collected. -/
structure Collected (inst : Instance) (opts : KernelOptions) (bcg : Assignment → Clause) (s : Slv P C)
    (res : List (Reform × D)) (F : List Clause) (n : Nat) (cs : List (Coll D)) : Prop where
  next : s.k.vm.nextVar ≤ n
  vars : VarsBelow n F
  sol : ∀ m, cnfEval m F = true → (pbAt inst opts bcg s).Sol m
  after : List.Forall₂ (After (pbAt inst opts bcg s) F n) res cs
  ext : ∀ t, (pbAt inst opts bcg s).Sol t → ∃ m, AgreeBelow (pbAt inst opts bcg s).n0 t m ∧ cnfEval m F = true ∧
    ∀ c ∈ cs, Exact c.db m

theorem BInv.collected {s0 : Slv P C} {res : List (Reform × D)} (hwf : WellFormed inst) (h : BInv inst opts bcg env s0 res s)
    (hlen : res.length = inst.objs.length) : Collected inst opts bcg s res (collectAll inst.clauses s.k.vm.nextVar res).1
      (collectAll inst.clauses s.k.vm.nextVar res).2.1 (collectAll inst.clauses s.k.vm.nextVar res).2.2 := by
  have hn : (pbAt inst opts bcg s).n0 ≤ s.k.vm.nextVar := h.cg.inv.next
  obtain ⟨g1, g2, g3, g4, g5⟩ := collectAll_run (h.before hlen) hn
    (((pb_wf (opts := opts) (bcg := bcg) hwf).clauses).mono hn)
  refine ⟨g1, g2, g3, g4, fun t ht => ?_⟩
  obtain ⟨m, h1, h2, h3⟩ := h.ext t ht
  have hsol : (pbAt inst opts bcg s).Sol m := (h.cg.inv.sound m h2.db).1
  obtain ⟨m', a1, a2, a3⟩ := g5 m hsol h3
  exact ⟨m', h1.trans (a1.mono hn), a2, a3⟩

theorem forall2_getElem {α β : Type} {r : α → β → Prop} {as : List α} {bs : List β} (h : List.Forall₂ r as bs) {i : Nat}
    {b : β} (hb : bs[i]? = some b) : ∃ a, as[i]? = some a ∧ r a b := by
  induction h generalizing i with
  | nil => simp at hb
  | cons h1 _ ih =>
    cases i with
    | zero =>
      simp only [List.getElem?_cons_zero, Option.some.injEq] at hb
      subst hb
      exact ⟨_, by simp, h1⟩
    | succ i =>
      obtain ⟨a, h2, h3⟩ := ih (by simpa using hb)
      exact ⟨a, by simpa using h2, h3⟩

theorem zipWith_costs {os : List Objective} {S : List Softs} {offs : List Nat} {f : Objective → Softs × Nat → Int}
    {g : Objective → Int} {r : Int → Int → Prop} (h1 : S.length = os.length) (h2 : offs.length = os.length)
    (h : ∀ (j : Nat) o S' k, os[j]? = some o → S[j]? = some S' → offs[j]? = some k → r (g o) (f o (S', k))) :
    List.Forall₂ r (os.map g) (List.zipWith f os (S.zip offs)) := by
  induction os generalizing S offs with
  | nil => simp
  | cons o os ih =>
    cases S with
    | nil => simp at h1
    | cons S' S =>
      cases offs with
      | nil => simp at h2
      | cons k offs =>
        simp only [List.map_cons, List.zip_cons_cons, List.zipWith_cons_cons, List.forall₂_cons]
        exact ⟨h 0 o S' k rfl rfl rfl, ih (by simpa using h1) (by simpa using h2)
          fun j o S' k a1 a2 a3 => h (j + 1) o S' k (by simpa using a1) (by simpa using a2) (by simpa using a3)⟩

theorem Collected.standsFor {s0 : Slv P C} {res : List (Reform × D)} {F : List Clause} {n : Nat} {cs : List (Coll D)}
    (hb : BInv inst opts bcg env s0 res s) (hlen : res.length = inst.objs.length) (h : Collected inst opts bcg s res F n cs) :
    StandsFor inst F (cs.map Coll.softs) (res.map fun p => p.1.offset) := by
  have hcl : cs.length = res.length := h.after.length_eq.symm
  have hfs : ∀ t, (problem inst).Feasible t ↔ (pbAt inst opts bcg s).Sol t := fun t => feasible_iff (opts := opts) (bcg := bcg) t
  have hl1 : (cs.map Coll.softs).length = inst.objs.length := by rw [List.length_map, hcl, hlen]
  have hl2 : (res.map fun p => p.1.offset).length = inst.objs.length := by rw [List.length_map, hlen]
  have hrel : ∀ (r : Int → Int → Prop) (t m : Asg), cnfEval m F = true → (pbAt inst opts bcg s).Sol t →
      (∀ (o : Objective) (off : Nat) (K : List (Lit × Nat)) (c : Coll D), c ∈ cs →
        (∃ p, After (pbAt inst opts bcg s) F n p c ∧
          Items (pbAt inst opts bcg s).n0 p.2 p.1.inactives.iter p.1.refs c K) → Sound c.db m →
        r (o.offset + o.unitWeight * ((off + wsum (litV c.db c.outs t) K : Nat) : Int))
          (o.offset + o.unitWeight * ((off + wsum (boolV m) K : Nat) : Int))) →
      List.Forall₂ r ((problem inst).costs t) (softCosts inst (cs.map Coll.softs) (res.map fun p => p.1.offset) m) := by
    intro r t m hm ht hr
    unfold Problem.costs problem softCosts
    rw [List.map_map]
    refine zipWith_costs hl1 hl2 fun j o S' k h1 h2 h3 => ?_
    rw [List.getElem?_map] at h2 h3
    obtain ⟨c, h2', rfl⟩ := Option.map_eq_some_iff.1 h2
    obtain ⟨p, h3', hpa⟩ := forall2_getElem h.after h2'
    rw [h3'] at h3
    simp only [Option.map_some, Option.some.injEq] at h3
    subst h3
    obtain ⟨K, hK⟩ := hpa.items
    obtain ⟨o', ho', he⟩ := hb.rel.symm.get h1
    have hmg := (hb.each j p.1 p.2 o' h3' ho').merge
    have := hr o p.1.offset K c (List.mem_of_getElem? h2') ⟨p, hpa, hK⟩ (hpa.sound m hm)
    simp only [Function.comp_apply, hK.softs, softCost_softOf]
    rw [objValue_eq]
    unfold extVal
    rw [lb_icost he, hK.icost hmg ht]
    convert this using 1
    push_cast
    ring
  refine ⟨hl1, hl2, fun m hm => ?_, fun m hm => ?_, fun t ht => ?_⟩
  · rw [satisfies_iff] at hm
    exact (hfs m).2 (h.sol m hm)
  · rw [satisfies_iff] at hm
    refine hrel _ m m hm (h.sol m hm) fun o off K c _ ⟨p, _, hK⟩ hs => ?_
    have := wsum_le (hK.over hs)
    have : off + wsum (litV c.db c.outs m) K ≤ off + wsum (boolV m) K := by omega
    have := Int.mul_le_mul_of_nonneg_left (Int.ofNat_le.2 this) (Int.natCast_nonneg o.unitWeight)
    omega
  · obtain ⟨m, h1, h2, h3⟩ := h.ext t ((hfs t).1 ht)
    refine ⟨m, fun v hv => (h1 v (by unfold pbAt Instance.pb Instance.withObjs; simp only; omega)).symm, (satisfies_iff _ _).2 h2, ?_⟩
    have := hrel Eq t m h2 ((hfs t).1 ht) fun o off K c hc ⟨p, hpa, hK⟩ hs => by
      have e : wsum (litV c.db c.outs t) K = wsum (boolV m) K := by
        refine wsum_congr fun l w hl _ => ?_
        rw [← hK.eq hs (h3 c hc) _ hl]
        exact hK.agree hpa.inputs h1 _ hl
      rw [e]
    rw [List.forall₂_eq_eq_eq] at this
    exact this.symm

end Scuttle
