import Verif.SpecProof
import Verif.Proof.Pb

/-!
# Lemmas about proof steps
-/

namespace Scuttle

set_option linter.unusedSectionVars false

variable {V : Type} [DecidableEq V]

namespace Spec

theorem extends_update {ρ : V → Bool} {σ : V → Option Bool} {v : V} {b : Bool} (h : ExtendedBy ρ σ) (hv : ρ v = b) :
    ExtendedBy ρ (Function.update σ v (some b)) := fun w c hw => by
  by_cases he : w = v
  · subst he; simp at hw; rw [hv, hw]
  · rw [Function.update_of_ne he] at hw; exact h w c hw

theorem extends_of_update {ρ : V → Bool} {σ : V → Option Bool} {v : V} {b : Bool} (h : σ v = none ∨ σ v = some b)
    (hr : ExtendedBy ρ (Function.update σ v (some b))) : ExtendedBy ρ σ := fun w c hw => by
  by_cases he : w = v
  · subst he
    rcases h with h | h
    · rw [h] at hw; cases hw
    · rw [h] at hw; cases hw; exact hr w b (by simp)
  · exact hr w c (by rw [Function.update_of_ne he]; exact hw)

/-- A conflict found by propagation means that there is no solution. -/
theorem Conflicts.sound {cs : List (LbCon V)} {σ : V → Option Bool} (h : Conflicts cs σ) {ρ : V → Bool}
    (hr : ExtendedBy ρ σ) : ¬ ∀ c ∈ cs, c.Holds ρ := by
  induction h with
  | conflict hc h => intro ha; exact h ρ hr (ha _ hc)
  | propagate v b hc h _ ih => intro ha; exact ih (extends_update hr (h ρ hr (ha _ hc))) ha

/-- What is found by reverse unit propagation is implied. -/
theorem Rup.sound {hs : List (LbCon V)} {c : LbCon V} (h : Rup hs c) {ρ : V → Bool} (hh : ∀ d ∈ hs, d.Holds ρ) :
    c.Holds ρ := by
  by_contra hc
  refine Conflicts.sound h (ρ := ρ) (fun v b hv => by simp at hv) fun d hd => ?_
  rcases List.mem_cons.1 hd with rfl | hd
  · exact (LbCon.holds_neg ρ c).2 hc
  · exact hh d hd

/-- Propagation only depends on which assignments satisfy the constraints. -/
theorem Conflicts.congr {cs ds : List (LbCon V)} {σ : V → Option Bool} (h : Conflicts cs σ)
    (hcd : ∀ c ∈ cs, ∃ d ∈ ds, ∀ ρ, d.Holds ρ → c.Holds ρ) : Conflicts ds σ := by
  induction h with
  | conflict hc h =>
    obtain ⟨d, hd, hd'⟩ := hcd _ hc
    exact .conflict hd fun ρ hr hh => h ρ hr (hd' ρ hh)
  | propagate v b hc h _ ih =>
    obtain ⟨d, hd, hd'⟩ := hcd _ hc
    exact .propagate v b hd (fun ρ hr hh => h ρ hr (hd' ρ hh)) ih

/-- Partial assignment that makes literals true. -/
def assign (ls : List (Axm V)) (σ : V → Option Bool) : V → Option Bool :=
  ls.foldl (fun σ a => Function.update σ a.var (some !a.neg)) σ

/-- Propagates several literals at once. -/
theorem Conflicts.propagates {cs : List (LbCon V)} (c : LbCon V) (hc : c ∈ cs) :
    ∀ (ls : List (Axm V)) {σ : V → Option Bool}, (∀ ρ, ExtendedBy ρ σ → c.Holds ρ → ∀ a ∈ ls, ρ a.var = !a.neg) →
      (∀ a ∈ ls, σ a.var = none ∨ σ a.var = some !a.neg) → (ls.map Axm.var).Nodup →
      Conflicts cs (assign ls σ) → Conflicts cs σ
  | [], _, _, _, _, h => h
  | a :: ls, σ, hp, hn, hd, h => by
    refine .propagate a.var (!a.neg) hc (fun ρ hr hh => hp ρ hr hh a (List.mem_cons_self ..)) ?_
    rw [List.map_cons, List.nodup_cons] at hd
    refine Conflicts.propagates c hc ls ?_ ?_ hd.2 h
    · intro ρ hr hh a' ha'
      exact hp ρ (extends_of_update (hn a (List.mem_cons_self ..)) hr) hh a' (List.mem_cons_of_mem _ ha')
    · intro a' ha'
      have : a'.var ≠ a.var := fun he => hd.1 (List.mem_map.2 ⟨a', ha', he⟩)
      rw [Function.update_of_ne this]
      exact hn a' (List.mem_cons_of_mem _ ha')

/-- The partial assignment makes a literal true. -/
def Assigned (σ : V → Option Bool) (a : Axm V) : Prop := σ a.var = some !a.neg

theorem assign_mem : ∀ (ls : List (Axm V)) {σ : V → Option Bool} {a : Axm V}, a ∈ ls → (ls.map Axm.var).Nodup →
    Assigned (assign ls σ) a
  | b :: ls, σ, a, ha, hd => by
    rw [List.map_cons, List.nodup_cons] at hd
    rcases List.mem_cons.1 ha with rfl | ha
    · have : ∀ (ls : List (Axm V)) (σ : V → Option Bool), a.var ∉ ls.map Axm.var → (assign ls σ) a.var = σ a.var := by
        intro ls
        induction ls with
        | nil => intro σ _; rfl
        | cons c ls ih =>
          intro σ hn
          rw [List.map_cons, List.mem_cons, not_or] at hn
          rw [assign, List.foldl_cons]
          have := ih (Function.update σ c.var (some !c.neg)) hn.2
          unfold assign at this
          rw [this, Function.update_of_ne hn.1]
      unfold Assigned
      have h := this ls (Function.update σ a.var (some !a.neg)) hd.1
      unfold assign at h ⊢
      rw [List.foldl_cons, h]; simp
    · exact assign_mem ls ha hd.2

theorem assign_of_notMem : ∀ (ls : List (Axm V)) (σ : V → Option Bool) {v : V}, v ∉ ls.map Axm.var → assign ls σ v = σ v
  | [], _, _, _ => rfl
  | c :: ls, σ, v, hn => by
    rw [List.map_cons, List.mem_cons, not_or] at hn
    have := assign_of_notMem ls (Function.update σ c.var (some !c.neg)) hn.2
    unfold assign at this ⊢
    rw [List.foldl_cons, this, Function.update_of_ne hn.1]

theorem ExtendedBy.val {ρ : V → Bool} {σ : V → Option Bool} (h : ExtendedBy ρ σ) {a : Axm V} (ha : Assigned σ a) :
    ρ a.var = !a.neg := h _ _ ha

/-- Starting point for reverse unit propagation of a clause: all its literals are false. -/
theorem rup_clause {hs : List (LbCon V)} {ls : List (Axm V)} (hd : (ls.map Axm.var).Nodup)
    (h : Conflicts ((LbCon.clause ls).neg :: hs) (assign (ls.map Axm.not) fun _ => none)) :
    Rup hs (.clause ls) := by
  refine Conflicts.propagates (LbCon.clause ls).neg (List.mem_cons_self ..) (ls.map Axm.not) ?_ ?_ ?_ h
  · intro ρ _ hh a ha
    obtain ⟨l, hl, rfl⟩ := List.mem_map.1 ha
    rw [LbCon.holds_neg, LbCon.holds_clause] at hh
    push Not at hh
    have := hh l hl
    show ρ l.var = !(!l.neg)
    cases h1 : ρ l.var <;> cases h2 : l.neg <;> simp_all
  · intro a _; exact Or.inl rfl
  · rw [List.map_map]; exact hd

/-- Propagation by clauses is found by propagation on constraints. -/
theorem Propagates.conflicts {cs : List (LbCon V)} {τ : List (Axm V)} {ants : List (List (Axm V))}
    (h : Propagates τ ants) : (∀ c ∈ ants, ∃ d ∈ cs, ∀ ρ, d.Holds ρ → (LbCon.clause c).Holds ρ) →
    ∀ {σ : V → Option Bool}, (∀ a ∈ τ, Assigned σ a) → Conflicts cs σ := by
  induction h with
  | conflict hc =>
    intro hcs σ hσ
    obtain ⟨d, hd, hd'⟩ := hcs _ (List.mem_cons_self ..)
    refine .conflict hd fun ρ hr hh => ?_
    obtain ⟨a, ha, ha'⟩ := (LbCon.holds_clause ρ _).1 (hd' ρ hh)
    have := ExtendedBy.val hr (hσ _ (hc a ha))
    simp [Axm.not, ha'] at this
  | @unit τ c cs' l hl hc _ ih =>
    intro hcs σ hσ
    obtain ⟨d, hd, hd'⟩ := hcs _ (List.mem_cons_self ..)
    by_cases hcon : ∃ a ∈ τ, a.var = l.var ∧ a.neg ≠ l.neg
    · obtain ⟨a, ha, hv, hn⟩ := hcon
      refine .conflict hd fun ρ hr hh => ?_
      obtain ⟨b, hb, hb'⟩ := (LbCon.holds_clause ρ _).1 (hd' ρ hh)
      by_cases hbl : b = l
      · subst hbl
        have := ExtendedBy.val hr (hσ _ ha)
        rw [hv, hb'] at this
        simp at this
        exact hn this.symm
      · have := ExtendedBy.val hr (hσ _ (hc b hb hbl))
        simp [Axm.not, hb'] at this
    · refine .propagate l.var (!l.neg) hd (fun ρ hr hh => ?_) (ih (fun e he => hcs e (List.mem_cons_of_mem _ he)) ?_)
      · obtain ⟨b, hb, hb'⟩ := (LbCon.holds_clause ρ _).1 (hd' ρ hh)
        by_cases hbl : b = l
        · subst hbl; exact hb'
        · have := ExtendedBy.val hr (hσ _ (hc b hb hbl))
          simp [Axm.not, hb'] at this
      · intro a ha
        rcases List.mem_cons.1 ha with rfl | ha
        · simp [Assigned]
        · by_cases hv : a.var = l.var
          · have : a.neg = l.neg := by
              by_contra hn; exact hcon ⟨a, ha, hv, hn⟩
            unfold Assigned; rw [hv, this]; simp
          · unfold Assigned; rw [Function.update_of_ne hv]; exact hσ a ha

end Spec

/-! ## Resolution by addition and saturation -/

namespace LbCon

theorem sum_filter_list (ls : List (Axm V)) (hd : ls.Nodup) (ρ : V → Bool) (S : Finset (Axm V))
    (hS : ∀ a ∈ ls, a ∈ S) : (ls.map fun a => a.val ρ).sum = ∑ a ∈ S, (if a ∈ ls then 1 else 0) * a.val ρ := by
  rw [← List.sum_toFinset _ hd]
  rw [← Finset.sum_subset (s₁ := ls.toFinset) (fun a ha => hS a (List.mem_toFinset.1 ha))]
  · apply Finset.sum_congr rfl
    intro a ha
    rw [if_pos (List.mem_toFinset.1 ha)]; simp
  · intro a _ ha
    rw [if_neg fun h => ha (List.mem_toFinset.2 h)]; simp

theorem sum_erase (ls : List (Axm V)) {p : Axm V} (hp : p ∈ ls) (ρ : V → Bool) :
    (ls.map fun a => a.val ρ).sum = p.val ρ + ((ls.erase p).map fun a => a.val ρ).sum := by
  have := (List.perm_cons_erase hp).map fun a => a.val ρ
  rw [this.sum_eq]; simp

/-- Adding two clauses that clash on a literal and saturating gives their resolvent. -/
theorem resolvent_same {p : Axm V} {d c r : List (Axm V)} {x y : LbCon V} (hx : Same x (clause d)) (hy : Same y (clause c))
    (hd : d.Nodup) (hc : c.Nodup) (h : Spec.Resolvent p d c r) : Same (x.add y).saturate (clause r) := by
  obtain ⟨hpd, hpc, hr, hmem⟩ := h
  have hrn : r.Nodup := List.Nodup.of_map _ hr
  let k : Axm V → Int := fun a => (if a ∈ d.erase p then 1 else 0) + (if a ∈ c.erase p.not then 1 else 0)
  let n : LbCon V := ⟨r.map fun a => (k a, a), 1⟩
  have hk : ∀ a ∈ r, 1 ≤ k a := by
    intro a ha
    show 1 ≤ (if a ∈ d.erase p then (1 : Int) else 0) + (if a ∈ c.erase p.not then 1 else 0)
    rcases (hmem a).1 ha with ⟨h1, h2⟩ | ⟨h1, h2⟩
    · rw [if_pos ((List.mem_erase_of_ne h2).2 h1)]; split <;> omega
    · rw [if_pos ((List.mem_erase_of_ne h2).2 h1)]; split <;> omega
  have hn : Normal n := by
    constructor
    · show ((r.map fun a => (k a, a)).map fun p => p.2.var).Nodup
      rw [List.map_map]; exact hr
    · intro q hq
      obtain ⟨a, ha, rfl⟩ := List.mem_map.1 hq
      have := hk a ha
      show 0 ≤ k a
      omega
  have hsame : Same (x.add y) n := by
    refine (hx.add hy).trans fun ρ => ?_
    rw [slack_add, slack_clause, slack_clause, sum_erase d hpd, sum_erase c hpc, Axm.val_not]
    have hdr : ∀ a ∈ d.erase p, a ∈ r.toFinset := fun a ha => by
      rw [List.mem_toFinset, hmem]
      exact Or.inl ⟨List.mem_of_mem_erase ha, fun he => by
        rw [he] at ha; exact (List.Nodup.mem_erase_iff hd).1 ha |>.1 rfl⟩
    have hcr : ∀ a ∈ c.erase p.not, a ∈ r.toFinset := fun a ha => by
      rw [List.mem_toFinset, hmem]
      exact Or.inr ⟨List.mem_of_mem_erase ha, fun he => by
        rw [he] at ha; exact (List.Nodup.mem_erase_iff hc).1 ha |>.1 rfl⟩
    rw [sum_filter_list (d.erase p) (hd.erase p) ρ r.toFinset hdr,
      sum_filter_list (c.erase p.not) (hc.erase p.not) ρ r.toFinset hcr]
    have : n.slack ρ = (∑ a ∈ r.toFinset, k a * a.val ρ) - 1 := by
      unfold slack lhs
      show ((r.map fun a => (k a, a)).map fun p => p.1 * p.2.val ρ).sum - 1 = _
      rw [List.map_map, ← List.sum_toFinset _ hrn]; rfl
    rw [this]
    have hsum : (∑ a ∈ r.toFinset, k a * a.val ρ) = ∑ a ∈ r.toFinset, (if a ∈ d.erase p then 1 else 0) * a.val ρ +
        ∑ a ∈ r.toFinset, (if a ∈ c.erase p.not then 1 else 0) * a.val ρ := by
      rw [← Finset.sum_add_distrib]
      apply Finset.sum_congr rfl
      intro a _
      show ((if a ∈ d.erase p then (1 : Int) else 0) + (if a ∈ c.erase p.not then 1 else 0)) * _ = _
      ring
    rw [hsum]; omega
  refine (hsame.saturate.trans hn.saturate).trans fun ρ => ?_
  unfold slack lhs clause
  show ((((r.map fun a => (k a, a)).map fun p => (min p.1 (max (1 : Int) 0), p.2))).map fun p => p.1 * p.2.val ρ).sum - 1 = _
  simp only [List.map_map, Function.comp_def]
  congr 2
  apply List.map_congr_left
  intro a ha
  have := hk a ha
  rw [show min (k a) (max (1 : Int) 0) = 1 by omega]

end LbCon

end Scuttle
