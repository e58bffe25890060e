import Verif.Proof.Prepro

/-!
# A reference translation of pseudo-Boolean constraints

Shows that the contract `GoodPbEncoding` can be met; it has no counterpart in `/repo` and stands for
`default_encode_pb_constraint` of `rustsat` in `/repo/core/src/prepro.rs:291`.
-/

namespace Scuttle

open Spec

/-- All ways to choose a literal for each variable (reference translation, `/repo/core/src/prepro.rs:291`). -/
def allChoices : List Nat → List (List Lit)
  | [] => [[]]
  | v :: vs => (allChoices vs).flatMap fun c => [⟨v, false⟩ :: c, ⟨v, true⟩ :: c]

/-- The assignment in which exactly the positive literals of the list are true (reference translation,
`/repo/core/src/prepro.rs:291`). -/
def asgOf (c : List Lit) : Asg := fun v => c.contains ⟨v, false⟩

/-- One clause for each way to violate the constraint (reference translation, `/repo/core/src/prepro.rs:291`). -/
def refPbEnc (c : PbCon) (n : Nat) : List Clause × Nat :=
  (((allChoices (c.terms.map fun t => t.1.var)).filter fun ch => !decide (PbHolds (asgOf ch) c)).map
    fun ch => ch.map Lit.not, n)

theorem mem_allChoices (vs : List Nat) (c : List Lit) : c ∈ allChoices vs ↔ c.map Lit.var = vs := by
  induction vs generalizing c with
  | nil => simp [allChoices]
  | cons v vs ih =>
    simp only [allChoices, List.mem_flatMap, List.mem_cons, List.not_mem_nil, or_false]
    constructor
    · rintro ⟨c', hc', rfl | rfl⟩ <;> simp [(ih c').1 hc']
    · intro h
      cases c with
      | nil => simp at h
      | cons l c =>
        simp only [List.map_cons, List.cons.injEq] at h
        refine ⟨c, (ih c).2 h.2, ?_⟩
        obtain ⟨v', b⟩ := l
        simp only at h
        obtain ⟨rfl, -⟩ := h
        cases b <;> simp

theorem pbHolds_congr {s t : Asg} {c : PbCon} (h : ∀ q ∈ c.terms, t q.1.var = s q.1.var) : PbHolds t c ↔ PbHolds s c := by
  have : pbSum t c.terms = pbSum s c.terms := by
    generalize c.terms = ts at h
    induction ts with
    | nil => rfl
    | cons q ts ih =>
      obtain ⟨l, w⟩ := q
      have h1 := h (l, w) (by simp)
      simp only at h1
      simp only [pbSum, LitTrue, h1, ih (fun q hq => h q (by simp [hq]))]
  unfold PbHolds
  rw [this]

theorem asgOf_agree {s : Asg} {c : List Lit} (h : ∀ l ∈ c, LitTrue s l) {v : Nat} (hv : v ∈ c.map Lit.var) :
    asgOf c v = s v := by
  unfold asgOf
  obtain ⟨⟨v', b⟩, hl, he⟩ := List.mem_map.1 hv
  simp only at he
  subst he
  have h1 := h _ hl
  simp only [LitTrue] at h1
  rw [h1]
  cases b
  · simpa using hl
  · simp only [Bool.not_true]
    by_contra hc
    simp only [Bool.not_eq_false, List.contains_iff_mem] at hc
    have := h _ hc
    simp only [LitTrue] at this
    simp_all

theorem refPbEnc_good : GoodPbEncoding refPbEnc where
  mono _ _ := le_refl _
  vars c n h cl hcl l hl := by
    simp only [refPbEnc, List.mem_map, List.mem_filter] at hcl
    obtain ⟨ch, ⟨hch, -⟩, rfl⟩ := hcl
    obtain ⟨l', hl', rfl⟩ := List.mem_map.1 hl
    rw [mem_allChoices] at hch
    have : l'.var ∈ ch.map Lit.var := List.mem_map.2 ⟨l', hl', rfl⟩
    rw [hch] at this
    obtain ⟨t, ht, he⟩ := List.mem_map.1 this
    simp only [Lit.not, refPbEnc]
    rw [← he]
    exact h t ht
  sound c n _ s hs := by
    by_contra hn
    let ch : List Lit := c.terms.map fun t => ⟨t.1.var, !s t.1.var⟩
    have htrue : ∀ l ∈ ch, LitTrue s l := by
      intro l hl
      obtain ⟨t, -, rfl⟩ := List.mem_map.1 hl
      simp [LitTrue]
    have hvars : ch.map Lit.var = c.terms.map fun t => t.1.var := by simp [ch, Function.comp_def]
    have hbad : ¬ PbHolds (asgOf ch) c := by
      rw [pbHolds_congr (s := s)]
      · exact hn
      · intro q hq
        apply asgOf_agree htrue
        rw [hvars]
        exact List.mem_map.2 ⟨q, hq, rfl⟩
    obtain ⟨l, hl, ht⟩ := hs (ch.map Lit.not) (by
      simp only [refPbEnc]
      exact List.mem_map.2 ⟨ch, List.mem_filter.2 ⟨(mem_allChoices _ _).2 hvars, by simp [hbad]⟩, rfl⟩)
    obtain ⟨l', hl', rfl⟩ := List.mem_map.1 hl
    rw [Lit.not_true_iff] at ht
    exact ht (htrue l' hl')
  complete c n _ s hs := by
    refine ⟨s, fun _ _ => rfl, ?_⟩
    intro cl hcl
    simp only [refPbEnc, List.mem_map, List.mem_filter] at hcl
    obtain ⟨ch, ⟨hch, hbad⟩, rfl⟩ := hcl
    by_contra hno
    have htrue : ∀ l ∈ ch, LitTrue s l := by
      intro l hl
      by_contra h
      exact hno ⟨l.not, List.mem_map.2 ⟨l, hl, rfl⟩, (Lit.not_true_iff s l).2 h⟩
    rw [mem_allChoices] at hch
    have : PbHolds (asgOf ch) c := by
      rw [pbHolds_congr (s := s)]
      · exact hs
      · intro q hq
        apply asgOf_agree htrue
        rw [hch]
        exact List.mem_map.2 ⟨q, hq, rfl⟩
    simp [this] at hbad

end Scuttle
