import Verif.Proof.ProofLog
import Verif.Props.ProofOrder
import Verif.Proof.Reindex

/-!
# Lemmas about the P-minimal cut in proofs
-/

namespace Scuttle

set_option linter.unusedSectionVars false

section

variable {V : Type} [DecidableEq V]

/-- A constraint forces literals; then anything that holds for partial assignments with these literals can be used. -/
theorem Spec.Conflicts.forced {cs : List (LbCon V)} (c : LbCon V) (hc : c ∈ cs) : ∀ (ls : List (Axm V))
    {σ : V → Option Bool}, (∀ ρ, Spec.ExtendedBy ρ σ → c.Holds ρ → ∀ a ∈ ls, ρ a.var = !a.neg) →
      (∀ σ', (∀ ρ, Spec.ExtendedBy ρ σ' → Spec.ExtendedBy ρ σ ∧ ∀ a ∈ ls, ρ a.var = !a.neg) → Spec.Conflicts cs σ') →
      Spec.Conflicts cs σ
  | [], σ, _, h => h σ fun ρ hr => ⟨hr, fun a ha => by cases ha⟩
  | a :: ls, σ, hp, h => by
    by_cases hex : ∃ ρ, Spec.ExtendedBy ρ σ ∧ c.Holds ρ
    · obtain ⟨ρ₀, h1, h2⟩ := hex
      have ha := hp ρ₀ h1 h2 a (List.mem_cons_self ..)
      have hv : σ a.var = none ∨ σ a.var = some !a.neg := by
        cases hs : σ a.var with
        | none => exact Or.inl rfl
        | some b => right; rw [← ha, h1 _ _ hs]
      refine .propagate a.var (!a.neg) hc (fun ρ hr hh => hp ρ hr hh a (List.mem_cons_self ..)) ?_
      refine Spec.Conflicts.forced c hc ls (fun ρ hr hh a' ha' => ?_) fun σ' hσ' => h σ' fun ρ hr => ?_
      · exact hp ρ (Spec.extends_of_update hv hr) hh a' (List.mem_cons_of_mem _ ha')
      · obtain ⟨h3, h4⟩ := hσ' ρ hr
        refine ⟨Spec.extends_of_update hv h3, fun a' ha' => ?_⟩
        rcases List.mem_cons.1 ha' with rfl | ha'
        · exact h3 _ _ (by simp)
        · exact h4 a' ha'
    · exact .conflict hc fun ρ hr hh => hex ⟨ρ, hr, hh⟩

theorem sum_val_le (ρ : V → Bool) (ls : List (Axm V)) : (ls.map fun a => a.val ρ).sum ≤ ls.length := by
  induction ls with
  | nil => simp
  | cons a l ih =>
    simp only [List.map_cons, List.sum_cons, List.length_cons]
    have := a.val_le_one ρ
    push_cast
    omega

theorem sum_val_eq {ρ : V → Bool} {ls : List (Axm V)} :
    (ls.map fun a => a.val ρ).sum = ls.length ↔ ∀ a ∈ ls, ρ a.var = !a.neg := by
  induction ls with
  | nil => simp
  | cons a l ih =>
    simp only [List.map_cons, List.sum_cons, List.length_cons, List.forall_mem_cons]
    have h1 := a.val_le_one ρ
    have h2 := sum_val_le ρ l
    rw [← ih, ← Axm.val_eq_one]
    push_cast
    omega

theorem subst_true {ω : List (Axm V)} (h : ∀ x ∈ ω, ∀ y ∈ ω, x.var = y.var → x = y) (ρ : V → Bool) {a : Axm V}
    (ha : a ∈ ω) : Spec.subst ω ρ a.var = !a.neg := by
  unfold Spec.subst
  cases hf : ω.find? fun x => x.var = a.var with
  | none =>
    have := List.find?_eq_none.1 hf a ha
    simp at this
  | some x =>
    have h1 := List.mem_of_find?_eq_some hf
    have h2 := List.find?_some hf
    have := h x h1 a ha (by simpa using h2)
    subst this; rfl

theorem get_of_mem_live {db : ConDb V} {c : LbCon V} (h : c ∈ Spec.live db) : ∃ i, db.get i = some c := by
  rw [mem_live] at h
  obtain ⟨i, hi, he⟩ := List.getElem_of_mem h
  refine ⟨i + 1, ?_⟩
  unfold ConDb.get
  rw [if_neg (by omega), Nat.add_sub_cancel, List.getElem?_eq_getElem hi, he]
  rfl

end

theorem live_of_keeps {ps ps' : PStuff} (h : Spec.Keeps ps ps') {c : LbCon AnyVar} (hc : c ∈ Spec.live ps.proof.db) :
    c ∈ Spec.live ps'.proof.db := by
  obtain ⟨i, hi⟩ := get_of_mem_live hc
  exact mem_live_of_get (h i c hi)

/-! ## The constraint that maps dominated solutions -/

theorem mapDom_slack (ω cut : List (Axm AnyVar)) (ρ : AnyVar → Bool) :
    (mapDomCon ω cut).slack ρ =
      (ω.map fun a => a.val ρ).sum + ((ω.length : Int) + 1) * (cut.map fun a => a.val ρ).sum - ω.length := by
  rw [LbCon.slack_def]
  unfold mapDomCon
  simp only
  rw [List.map_append, List.sum_append]
  simp only [List.map_map, Function.comp_def, one_mul]
  rw [List.sum_map_mul_left]

/-- It says that a literal of the cut or all literals of the witness are true. -/
theorem mapDom_holds (ω cut : List (Axm AnyVar)) (ρ : AnyVar → Bool) :
    (mapDomCon ω cut).Holds ρ ↔ (∃ a ∈ cut, ρ a.var = !a.neg) ∨ ∀ a ∈ ω, ρ a.var = !a.neg := by
  rw [LbCon.holds_iff, mapDom_slack, ← sum_val_eq, ← LbCon.holds_clause, LbCon.holds_iff, LbCon.slack_clause]
  have h1 := sum_val_le ρ ω
  have h2 := LbCon.sum_val_nonneg ρ ω
  have h3 := LbCon.sum_val_nonneg ρ cut
  generalize (ω.map fun a => a.val ρ).sum = x at *
  generalize (cut.map fun a => a.val ρ).sum = y at *
  generalize (ω.length : Int) = n at *
  constructor
  · intro h
    by_cases hy : y = 0
    · subst hy; right; omega
    · left; omega
  · rintro (h | h)
    · have : (n + 1) * 1 ≤ (n + 1) * y := Int.mul_le_mul_of_nonneg_left (by omega) (by omega)
      omega
    · have : 0 ≤ (n + 1) * y := Int.mul_nonneg (by omega) h3
      omega

/-- The cut follows by unit propagation from the mapping and the excluded solution. -/
theorem cut_rup (ω cut : List (Axm AnyVar)) :
    Spec.Rup [mapDomCon ω cut, .clause (ω.map Axm.not)] (.clause cut) := by
  unfold Spec.Rup
  refine Spec.Conflicts.forced (LbCon.clause cut).neg (List.mem_cons_self ..) (cut.map Axm.not) ?_ fun σ₁ h1 => ?_
  · intro ρ _ hh a ha
    obtain ⟨b, hb, rfl⟩ := List.mem_map.1 ha
    rw [LbCon.holds_neg, LbCon.holds_clause] at hh
    by_contra hne
    refine hh ⟨b, hb, ?_⟩
    simp only [Axm.not] at hne
    revert hne
    cases ρ b.var <;> cases b.neg <;> simp
  · refine Spec.Conflicts.forced (mapDomCon ω cut) (by simp) ω ?_ fun σ₂ h2 => ?_
    · intro ρ hr hh
      rcases (mapDom_holds ω cut ρ).1 hh with ⟨b, hb, hv⟩ | h
      · have := (h1 ρ hr).2 b.not (List.mem_map_of_mem hb)
        simp only [Axm.not] at this
        rw [hv] at this
        revert this
        cases b.neg <;> simp
      · exact h
    · refine .conflict (c := .clause (ω.map Axm.not)) (by simp) fun ρ hr hh => ?_
      obtain ⟨b, hb, hv⟩ := (LbCon.holds_clause _ _).1 hh
      obtain ⟨a, ha, rfl⟩ := List.mem_map.1 hb
      have := (h2 ρ hr).2 a ha
      simp only [Axm.not] at hv
      rw [hv] at this
      revert this
      cases a.neg <;> simp

/-- From the negation of the mapping each literal of the cut propagates to false. -/
theorem cutLit_rup (ω cut : List (Axm AnyVar)) {l : Axm AnyVar} (hl : l ∈ cut) :
    Spec.Rup [(mapDomCon ω cut).neg] (.clause [l.not]) := by
  unfold Spec.Rup
  refine Spec.Conflicts.forced (LbCon.clause [l.not]).neg (List.mem_cons_self ..) [l] ?_ fun σ₁ h1 => ?_
  · intro ρ _ hh a ha
    cases List.mem_singleton.1 ha
    rw [LbCon.holds_neg, LbCon.holds_clause] at hh
    by_contra hne
    refine hh ⟨l.not, List.mem_singleton.2 rfl, ?_⟩
    simp only [Axm.not]
    revert hne
    cases ρ l.var <;> cases l.neg <;> simp
  · refine .conflict (c := (mapDomCon ω cut).neg) (by simp) fun ρ hr hh => ?_
    rw [LbCon.holds_neg, mapDom_holds] at hh
    exact hh (Or.inl ⟨l, hl, (h1 ρ hr).2 l (List.mem_singleton.2 rfl)⟩)

/-- The excluded solution follows by unit propagation from the cut. -/
theorem exclude_rup (ω cut : List (Axm AnyVar))
    (h : ∀ ρ : AnyVar → Bool, (∀ a ∈ ω, ρ a.var = !a.neg) → ∀ l ∈ cut, l.val ρ = 0) :
    Spec.Rup [(LbCon.clause (ω.map Axm.not)).neg, .clause cut] (.clause []) := by
  unfold Spec.Rup
  refine Spec.Conflicts.forced (LbCon.clause (ω.map Axm.not)).neg (by simp) ω ?_ fun σ₁ h1 => ?_
  · intro ρ _ hh a ha
    rw [LbCon.holds_neg, LbCon.holds_clause] at hh
    by_contra hne
    refine hh ⟨a.not, List.mem_map_of_mem ha, ?_⟩
    simp only [Axm.not]
    revert hne
    cases ρ a.var <;> cases a.neg <;> simp
  · refine .conflict (c := .clause cut) (by simp) fun ρ hr hh => ?_
    obtain ⟨b, hb, hv⟩ := (LbCon.holds_clause _ _).1 hh
    have := h ρ (h1 ρ hr).2 b hb
    rw [← Axm.val_eq_one] at hv
    omega

/-! ## The witness -/

theorem litValue_iff (a : Assignment) (l : Lit) :
    (a.litValue l = .tt ↔ a[l.var]? = some (TV.ofBool (!l.neg))) ∧
    (a.litValue l = .ff ↔ a[l.var]? = some (TV.ofBool l.neg)) := by
  unfold Assignment.litValue Assignment.varValue
  rw [List.getD_eq_getElem?_getD]
  cases a[l.var]? with
  | none => cases l.neg <;> simp [TV.ofBool]
  | some t => cases t <;> cases l.neg <;> simp [TV.ofBool]

/-- How the loop sets one recorded variable. -/
theorem fixValues_cons {costs : List Nat} {this : Axm AnyVar} {val : ProofVal} {m : List (Axm AnyVar × ProofVal)}
    {a : Assignment} {ps : List (Axm AnyVar)} {r : Assignment × List (Axm AnyVar)}
    (h : fixValues costs ((this, val) :: m) a ps = some r) :
    ∃ x, (match val with
      | .identical that => (x = this ∧ a[that.var]? = some (TV.ofBool (!that.neg))) ∨
          (x = this.not ∧ a[that.var]? = some (TV.ofBool that.neg))
      | .objAtLeast i v => ∃ c, costs[i]? = some c ∧ ((x = this ∧ v ≤ c) ∨ (x = this.not ∧ c < v))) ∧
      (((∃ k, x.var = .proof k) ∧ fixValues costs m a (ps ++ [x]) = some r) ∨
        ∃ v, x.var = .solver v ∧ fixValues costs m (a.assignLit ⟨v, x.neg⟩) ps = some r) := by
  cases val with
  | identical that =>
    unfold fixValues at h
    cases hv : a.litValue that with
    | tt =>
      rw [hv] at h
      refine ⟨this, Or.inl ⟨rfl, (litValue_iff a that).1.1 hv⟩, ?_⟩
      cases hx : this.var with
      | proof k => rw [hx] at h; exact Or.inl ⟨⟨k, rfl⟩, h⟩
      | solver v => rw [hx] at h; exact Or.inr ⟨v, rfl, h⟩
    | ff =>
      rw [hv] at h
      refine ⟨this.not, Or.inr ⟨rfl, (litValue_iff a that).2.1 hv⟩, ?_⟩
      rw [Axm.not_var]
      cases hx : this.var with
      | proof k => rw [hx] at h; exact Or.inl ⟨⟨k, rfl⟩, h⟩
      | solver v => rw [hx] at h; exact Or.inr ⟨v, rfl, h⟩
    | dc => rw [hv] at h; cases h
  | objAtLeast i value =>
    unfold fixValues at h
    cases hc : costs[i]? with
    | none => rw [hc] at h; cases h
    | some c =>
      rw [hc] at h
      simp only at h
      by_cases hle : c ≥ value
      · rw [if_pos hle] at h
        refine ⟨this, ⟨c, hc, Or.inl ⟨rfl, hle⟩⟩, ?_⟩
        cases hx : this.var with
        | proof k => rw [hx] at h; exact Or.inl ⟨⟨k, rfl⟩, h⟩
        | solver v => rw [hx] at h; exact Or.inr ⟨v, rfl, h⟩
      · rw [if_neg hle] at h
        refine ⟨this.not, ⟨c, hc, Or.inr ⟨rfl, by omega⟩⟩, ?_⟩
        rw [Axm.not_var]
        cases hx : this.var with
        | proof k => rw [hx] at h; exact Or.inl ⟨⟨k, rfl⟩, h⟩
        | solver v => rw [hx] at h; exact Or.inr ⟨v, rfl, h⟩

/-- What a recorded variable is set to. -/
def ValueSet (costs : List Nat) (a : Assignment) (p : Axm AnyVar × ProofVal) (x : Axm AnyVar) : Prop :=
  match p.2 with
  | .identical that => (x = p.1 ∧ a[that.var]? = some (TV.ofBool (!that.neg))) ∨
      (x = p.1.not ∧ a[that.var]? = some (TV.ofBool that.neg))
  | .objAtLeast i v => ∃ c, costs[i]? = some c ∧ ((x = p.1 ∧ v ≤ c) ∨ (x = p.1.not ∧ c < v))

theorem ValueSet.var {costs : List Nat} {a : Assignment} {p : Axm AnyVar × ProofVal} {x : Axm AnyVar}
    (h : ValueSet costs a p x) : x.var = p.1.var := by
  unfold ValueSet at h
  split at h
  · rcases h with ⟨rfl, _⟩ | ⟨rfl, _⟩ <;> rfl
  · obtain ⟨_, _, ⟨rfl, _⟩ | ⟨rfl, _⟩⟩ := h <;> rfl

theorem fixValues_spec {costs : List Nat} : ∀ {m : List (Axm AnyVar × ProofVal)} {a a' : Assignment}
    {ps ps' : List (Axm AnyVar)}, fixValues costs m a ps = some (a', ps') → (m.map fun p => p.1.var).Nodup →
    (∀ this that, (this, ProofVal.identical that) ∈ m → ∀ p ∈ m, p.1.var ≠ .solver that.var) →
    ∃ new, ps' = ps ++ new ∧ (∀ x ∈ new, (∃ k, x.var = .proof k) ∧ ∃ p ∈ m, x.var = p.1.var) ∧
      (∀ x ∈ new, ∀ y ∈ new, x.var = y.var → x = y) ∧
      (∀ v b, (∀ p ∈ m, p.1.var ≠ .solver v) → (a'[v]? = some (TV.ofBool b) ↔ a[v]? = some (TV.ofBool b))) ∧
      ∀ p ∈ m, ∃ x, ValueSet costs a p x ∧ (x ∈ new ∨ ∃ v, x.var = .solver v ∧ a'[v]? = some (TV.ofBool (!x.neg)))
  | [], a, a', ps, ps', h, _, _ => by
    simp only [fixValues, Option.some.injEq, Prod.mk.injEq] at h
    obtain ⟨rfl, rfl⟩ := h
    exact ⟨[], by simp, by simp, by simp, fun _ _ _ => Iff.rfl, by simp⟩
  | (this, val) :: m, a, a', ps, ps', h, hnd, hid => by
    rw [List.map_cons, List.nodup_cons] at hnd
    have hnk : ∀ p ∈ m, p.1.var ≠ this.var := fun p hp he => hnd.1 (List.mem_map.2 ⟨p, hp, he⟩)
    have hid' : ∀ this that, (this, ProofVal.identical that) ∈ m → ∀ p ∈ m, p.1.var ≠ .solver that.var :=
      fun t t' ht p hp => hid t t' (List.mem_cons_of_mem _ ht) p (List.mem_cons_of_mem _ hp)
    obtain ⟨x, hx, hcase⟩ := fixValues_cons h
    have hset : ValueSet costs a (this, val) x := by
      unfold ValueSet
      cases val <;> exact hx
    have hxv : x.var = this.var := hset.var
    rcases hcase with ⟨⟨k, hk⟩, hrec⟩ | ⟨v, hv, hrec⟩
    · obtain ⟨new, h1, h2, h3, h4, h5⟩ := fixValues_spec hrec hnd.2 hid'
      refine ⟨x :: new, by rw [h1]; simp, ?_, ?_, ?_, ?_⟩
      · intro y hy
        rcases List.mem_cons.1 hy with rfl | hy
        · exact ⟨⟨k, hk⟩, (this, val), List.mem_cons_self .., hxv⟩
        · obtain ⟨g1, p, hp, g2⟩ := h2 y hy
          exact ⟨g1, p, List.mem_cons_of_mem _ hp, g2⟩
      · intro y hy z hz he
        rcases List.mem_cons.1 hy with hy | hy <;> rcases List.mem_cons.1 hz with hz | hz
        · rw [hy, hz]
        · obtain ⟨_, p, hp, g2⟩ := h2 z hz
          exact absurd (by rw [← g2, ← he, hy, hxv]) (hnk p hp)
        · obtain ⟨_, p, hp, g2⟩ := h2 y hy
          exact absurd (by rw [← g2, he, hz, hxv]) (hnk p hp)
        · exact h3 y hy z hz he
      · exact fun v b hvk => h4 v b fun p hp => hvk p (List.mem_cons_of_mem _ hp)
      · intro p hp
        rcases List.mem_cons.1 hp with rfl | hp
        · exact ⟨x, hset, Or.inl (List.mem_cons_self ..)⟩
        · obtain ⟨y, g1, g2⟩ := h5 p hp
          exact ⟨y, g1, g2.imp (List.mem_cons_of_mem _) id⟩
    · obtain ⟨new, h1, h2, h3, h4, h5⟩ := fixValues_spec hrec hnd.2 hid'
      have hkeep : ∀ w b, w ≠ v → ((a.assignLit ⟨v, x.neg⟩)[w]? = some (TV.ofBool b) ↔ a[w]? = some (TV.ofBool b)) := by
        intro w b hw
        rw [assignLit_get, if_neg hw]
      refine ⟨new, h1, ?_, h3, ?_, ?_⟩
      · intro y hy
        obtain ⟨g1, p, hp, g2⟩ := h2 y hy
        exact ⟨g1, p, List.mem_cons_of_mem _ hp, g2⟩
      · intro w b hvk
        rw [h4 w b fun p hp => hvk p (List.mem_cons_of_mem _ hp), hkeep]
        rintro rfl
        exact hvk _ (List.mem_cons_self ..) (by rw [← hv, hxv])
      · intro p hp
        rcases List.mem_cons.1 hp with rfl | hp
        · refine ⟨x, hset, Or.inr ⟨v, hv, ?_⟩⟩
          rw [h4 v _ fun p hp he => hnk p hp (by rw [he, ← hv, hxv]), assignLit_get, if_pos rfl]
        · obtain ⟨y, g1, g2⟩ := h5 p hp
          refine ⟨y, ?_, g2⟩
          obtain ⟨pt, pv⟩ := p
          unfold ValueSet at g1 ⊢
          cases pv with
          | objAtLeast i c => exact g1
          | identical that =>
            have hne : that.var ≠ v := by
              rintro rfl
              exact hid pt that (List.mem_cons_of_mem _ hp) _ (List.mem_cons_self ..) (by rw [← hv, hxv])
            simp only at g1 ⊢
            rw [hkeep _ _ hne, hkeep _ _ hne] at g1
            exact g1

/-- The witness with the values of encodings. -/
def cutBase (encs : List EncView) (witness : Assignment) : Assignment :=
  .ofLits (witness.toLits ++ encs.flatMap fun enc => enc.extend witness)

/-- The substitution of the cut has the values of the witness, and gives recorded variables the value they should have for
these costs. -/
theorem fixedWitness_spec {encs : List EncView} {costs : List Nat} {witness : Assignment}
    {m : List (Axm AnyVar × ProofVal)} {ω : List (Axm AnyVar)} (h : fixedWitness encs costs witness m = some ω)
    (hnd : (m.map fun p => p.1.var).Nodup)
    (hid : ∀ this that, (this, ProofVal.identical that) ∈ m → ∀ p ∈ m, p.1.var ≠ .solver that.var) :
    (∀ x ∈ ω, ∀ y ∈ ω, x.var = y.var → x = y) ∧
    (∀ v b, (cutBase encs witness)[v]? = some (TV.ofBool b) → (∀ p ∈ m, p.1.var ≠ .solver v) →
      (⟨.solver v, !b⟩ : Axm AnyVar) ∈ ω) ∧
    ∀ p ∈ m, ∃ x ∈ ω, ValueSet costs (cutBase encs witness) p x := by
  unfold fixedWitness at h
  obtain ⟨⟨a, ps⟩, h1, h2⟩ := Option.bind_eq_some_iff.1 h
  simp only [Option.some.injEq] at h2
  obtain ⟨new, g1, g2, g3, g4, g5⟩ := fixValues_spec h1 hnd hid
  rw [List.nil_append] at g1
  subst g1
  have hmem : ∀ v b, a[v]? = some (TV.ofBool b) → (⟨.solver v, !b⟩ : Axm AnyVar) ∈ ω := by
    intro v b hv
    rw [← h2]
    refine List.mem_append_left _ (List.mem_map.2 ⟨⟨v, !b⟩, ?_, rfl⟩)
    rw [mem_toLits]
    simpa using hv
  refine ⟨?_, ?_, ?_⟩
  · intro x hx y hy he
    rw [← h2] at hx hy
    rcases List.mem_append.1 hx with hx | hx <;> rcases List.mem_append.1 hy with hy | hy
    · obtain ⟨l, hl, rfl⟩ := List.mem_map.1 hx
      obtain ⟨l', hl', rfl⟩ := List.mem_map.1 hy
      rw [mem_toLits] at hl hl'
      have hvar : l.var = l'.var := AnyVar.solver.inj he
      rw [hvar] at hl
      rw [hl] at hl'
      have hneg : l.neg = l'.neg := by
        revert hl'
        cases l.neg <;> cases l'.neg <;> simp [TV.ofBool]
      unfold toAxm
      rw [hvar, hneg]
    · obtain ⟨l, _, rfl⟩ := List.mem_map.1 hx
      obtain ⟨⟨k, hk⟩, _⟩ := g2 y hy
      rw [hk] at he; cases he
    · obtain ⟨l, _, rfl⟩ := List.mem_map.1 hy
      obtain ⟨⟨k, hk⟩, _⟩ := g2 x hx
      rw [hk] at he; cases he
    · exact g3 x hx y hy he
  · intro v b hv hk
    exact hmem v b ((g4 v b hk).2 hv)
  · intro p hp
    obtain ⟨x, k1, k2⟩ := g5 p hp
    refine ⟨x, ?_, k1⟩
    rcases k2 with k2 | ⟨v, hv, k2⟩
    · rw [← h2]; exact List.mem_append_right _ k2
    · have := hmem v _ k2
      rw [← hv] at this
      simpa using this

variable {ord : (AnyVar → Bool) → (AnyVar → Bool) → Prop} {objs : List Objective} {base : Assignment}

/-- The solution extended by the substitution has its costs and recorded meanings. -/
theorem subst_meaning {encs : List EncView} {costs : List Nat} {witness : Assignment} {ps : PStuff}
    {ω : List (Axm AnyVar)} (h : fixedWitness encs costs witness ps.valueMap = some ω)
    (hl : Spec.LogState objs (cutBase encs witness) ps)
    (hcost : ∀ ρ, Spec.WitnessAgrees (cutBase encs witness) ps.valueMap ρ →
      ∀ (i : Nat) o c, objs[i]? = some o → costs[i]? = some c → Spec.objSum o ρ = c)
    {ρ : AnyVar → Bool} (hω : ∀ a ∈ ω, ρ a.var = !a.neg) :
    Spec.WitnessAgrees (cutBase encs witness) ps.valueMap ρ ∧ Spec.Meaning objs ps.valueMap ρ := by
  obtain ⟨_, h2, h3⟩ := fixedWitness_spec h hl.keys hl.identical
  have hw : Spec.WitnessAgrees (cutBase encs witness) ps.valueMap ρ := fun v b hv hk => by
    simpa using hω _ (h2 v b hv hk)
  refine ⟨hw, fun this that hm => ?_, fun this idx value hm o ho => ?_⟩
  · obtain ⟨x, hx, hs⟩ := h3 _ hm
    have hxt := hω x hx
    have hk := hl.identical this that hm
    rcases hs with ⟨rfl, ht⟩ | ⟨rfl, ht⟩
    · rw [(Axm.val_eq_one ρ x).2 hxt, (Axm.val_eq_one ρ _).2 (hw _ _ ht hk)]
    · have h1 : this.val ρ = 0 := by
        have h9 : this.not.val ρ = 1 := (Axm.val_eq_one ρ _).2 hxt
        rw [Axm.val_not] at h9; omega
      rw [h1, (Axm.val_eq_zero ρ _).2 (hw _ _ ht hk)]
  · obtain ⟨x, hx, c, hc, hs⟩ := h3 _ hm
    have hxt := hω x hx
    rw [hcost ρ hw idx o c ho hc]
    rcases hs with ⟨rfl, ht⟩ | ⟨rfl, ht⟩
    · exact ⟨fun _ => ht, fun _ => (Axm.val_eq_one ρ x).2 hxt⟩
    · have h1 : this.val ρ = 0 := by
        have h9 : this.not.val ρ = 1 := (Axm.val_eq_one ρ _).2 hxt
        rw [Axm.val_not] at h9; omega
      constructor <;> intro <;> omega

/-! ## The entries of the cut -/

theorem witnessAgrees_append {m : List (Axm AnyVar × ProofVal)} {k : Nat} {val : ProofVal} {ρ : AnyVar → Bool} :
    Spec.WitnessAgrees base (m ++ [((⟨.proof k, false⟩ : Axm AnyVar), val)]) ρ ↔ Spec.WitnessAgrees base m ρ := by
  constructor
  · intro h v b hv hk
    refine h v b hv fun p hp => ?_
    rcases List.mem_append.1 hp with hp | hp
    · exact hk p hp
    · cases List.mem_singleton.1 hp
      intro he; cases he
  · intro h v b hv hk
    exact h v b hv fun p hp => hk p (List.mem_append_left _ hp)

/-- A bound on an objective either is there already, or its definitions are added. -/
theorem getObjBound_state (value : Nat) (obj : Objective) (ps : PStuff) :
    (getObjBound value obj ps).2 = ps ∨
    ((getObjBound value obj ps).2.valueMap = ps.valueMap ++
        [((⟨.proof ps.proof.nProofVars, false⟩ : Axm AnyVar), ProofVal.objAtLeast obj.idx value)] ∧
      (getObjBound value obj ps).2.proof.nProofVars = ps.proof.nProofVars + 1 ∧
      (getObjBound value obj ps).2.proof.db = ps.proof.db ++ [some (boundDef₁ obj value (.proof ps.proof.nProofVars))] ++
        [some (boundDef₂ obj value (.proof ps.proof.nProofVars))]) := by
  cases hm : mapGet (obj.idx, value) ps.bounds with
  | some d => left; unfold getObjBound; rw [hm]
  | none => right; unfold getObjBound; rw [hm]; exact ⟨rfl, rfl, rfl⟩

/-- Lines were written that only add to the state. -/
structure Grows (ord : (AnyVar → Bool) → (AnyVar → Bool) → Prop) (objs : List Objective) (base : Assignment)
    (ps ps' : PStuff) : Prop where
  writes : Spec.Writes ord ps ps'
  keeps : Spec.Keeps ps ps'
  state : Spec.LogState objs base ps'
  agrees : ∀ ρ, Spec.WitnessAgrees base ps'.valueMap ρ ↔ Spec.WitnessAgrees base ps.valueMap ρ
  values : ∀ x ∈ ps.valueMap, x ∈ ps'.valueMap
  solver : ∀ p ∈ ps'.valueMap, ∀ v, p.1.var = .solver v → p ∈ ps.valueMap
  nVars : ps.proof.nProofVars ≤ ps'.proof.nProofVars
  added : ps'.added = ps.added

theorem Grows.refl {ps : PStuff} (h : Spec.LogState objs base ps) : Grows ord objs base ps ps :=
  ⟨Spec.Writes.refl ord ps, Spec.Keeps.refl ps, h, fun _ => Iff.rfl, fun _ h => h, fun _ h _ _ => h, le_refl _, rfl⟩

theorem Grows.trans {ps ps' ps'' : PStuff} (h : Grows ord objs base ps ps') (h' : Grows ord objs base ps' ps'') :
    Grows ord objs base ps ps'' :=
  ⟨h.writes.trans h'.writes, h.keeps.trans h'.keeps, h'.state, fun ρ => (h'.agrees ρ).trans (h.agrees ρ),
    fun x hx => h'.values x (h.values x hx), fun p hp v hv => h.solver p (h'.solver p hp v hv) v hv,
    h.nVars.trans h'.nVars, h'.added.trans h.added⟩

/-- Bounds keep the state. -/
theorem getObjBound_logState (hord : Spec.SolverOrder ord) {ps : PStuff} {obj : Objective} {value : Nat}
    (ho : objs[obj.idx]? = some obj) (hl : Spec.LogState objs base ps) :
    ∃ k d₁ d₂ ps', getObjBound value obj ps = ((⟨.proof k, false⟩, d₁, d₂), ps') ∧
      ps'.proof.db.get d₁ = some (boundDef₁ obj value (.proof k)) ∧
      ps'.proof.db.get d₂ = some (boundDef₂ obj value (.proof k)) ∧
      ((⟨.proof k, false⟩ : Axm AnyVar), ProofVal.objAtLeast obj.idx value) ∈ ps'.valueMap ∧
      Grows ord objs base ps ps' := by
  obtain ⟨k, d₁, d₂, ps', he, h1, h2, h3, h4, h5, h6, h7, h8, h9⟩ :=
    getObjBound_spec hord (value := value) ho hl.bounds hl.fresh
  have hst := getObjBound_state value obj ps
  rw [he] at hst
  refine ⟨k, d₁, d₂, ps', he, h1, h2, h3, ?_⟩
  rcases hst with hst | ⟨hv, hn, hdb⟩
  · have hst' : ps' = ps := hst
    subst hst'
    exact Grows.refl hl
  · replace hv : ps'.valueMap = _ := hv
    replace hn : ps'.proof.nProofVars = _ := hn
    replace hdb : ps'.proof.db = _ := hdb
    refine ⟨h4, h5, ⟨h6, h7, ?_, ?_, ?_, ?_⟩, fun ρ => by rw [hv, witnessAgrees_append], h9, fun p hp v hpv => ?_,
      by rw [hn]; omega, h8⟩
    · rw [hv, List.map_append, List.nodup_append]
      refine ⟨hl.keys, by simp, ?_⟩
      intro x hx y hy he
      obtain ⟨p, hp, rfl⟩ := List.mem_map.1 hx
      simp only [List.map_cons, List.map_nil, List.mem_singleton] at hy
      have := hl.below p hp _ (he.trans hy)
      omega
    · intro p hp j hj
      rw [hv] at hp
      rw [hn]
      rcases List.mem_append.1 hp with hp | hp
      · have := hl.below p hp j hj; omega
      · cases List.mem_singleton.1 hp
        cases hj; omega
    · intro this that hm p hp
      rw [hv] at hm hp
      rcases List.mem_append.1 hm with hm | hm
      · rcases List.mem_append.1 hp with hp | hp
        · exact hl.identical this that hm p hp
        · cases List.mem_singleton.1 hp
          intro h; cases h
      · cases List.mem_singleton.1 hm
    · intro ρ hw hm c hc
      rw [hv] at hw hm
      have hm' : Spec.Meaning objs ps.valueMap ρ :=
        ⟨fun t t' h => hm.1 t t' (List.mem_append_left _ h), fun t i v h => hm.2 t i v (List.mem_append_left _ h)⟩
      rw [hdb, live_append, live_append] at hc
      have hr := hm.2 _ _ _ (List.mem_append_right _ (List.mem_singleton.2 rfl)) obj ho
      have hdefs := (boundDefs_iff obj value (.proof ps.proof.nProofVars) ρ).2 (by
        rw [← hr, val_pos]; cases ρ (.proof ps.proof.nProofVars) <;> simp)
      rcases hc with (hc | rfl) | rfl
      · exact hl.solves ρ (witnessAgrees_append.1 hw) hm' c hc
      · exact hdefs.1
      · exact hdefs.2
    · rw [hv] at hp
      rcases List.mem_append.1 hp with hp | hp
      · exact hp
      · cases List.mem_singleton.1 hp
        cases hpv

/-- What an entry of the cut is good for. -/
structure DatumOk (objs : List Objective) (base : Assignment) (ps : PStuff) (o : PObj) (cst : Nat)
    (encSum : (AnyVar → Bool) → Nat) (dat : Option (Axm AnyVar) × Option Nat) : Prop where
  atLeast : ∀ ρ, (∀ c ∈ Spec.live ps.proof.db, c.Holds ρ) → (∀ l, dat.1 = some l → l.val ρ = 0) →
    cst ≤ Spec.objSum o.obj ρ
  witness : ∀ ρ, Spec.WitnessAgrees base ps.valueMap ρ → Spec.Meaning objs ps.valueMap ρ →
    ∀ l, dat.1 = some l → l.val ρ = 0
  defn : ∀ l d, dat = (some l, some d) → o.obj.lowerBound ≤ cst ∧ ∃ c, ps.proof.db.get d = some c ∧
    ∀ ρ, c.slack ρ = (encSum ρ : Int) + ((cst : Int) - o.obj.lowerBound) * l.val ρ - ((cst : Int) - o.obj.lowerBound)
  lower : ∀ r, dat = (none, some r) → o.reformId = some r ∧ cst ≤ o.obj.lowerBound
  fresh : ∀ l k, dat.1 = some l → l.var = .proof k → k < ps.proof.nProofVars

theorem DatumOk.mono {ps ps' : PStuff} {o : PObj} {cst : Nat} {encSum : (AnyVar → Bool) → Nat}
    {dat : Option (Axm AnyVar) × Option Nat} (h : DatumOk objs base ps o cst encSum dat) (hk : Spec.Keeps ps ps')
    (hw : ∀ ρ, Spec.WitnessAgrees base ps'.valueMap ρ → Spec.WitnessAgrees base ps.valueMap ρ)
    (hv : ∀ x ∈ ps.valueMap, x ∈ ps'.valueMap) (hn : ps.proof.nProofVars ≤ ps'.proof.nProofVars) :
    DatumOk objs base ps' o cst encSum dat where
  atLeast := fun ρ hρ => h.atLeast ρ fun c hc => hρ c (live_of_keeps hk hc)
  witness := fun ρ h1 h2 => h.witness ρ (hw ρ h1)
    ⟨fun t t' hm => h2.1 t t' (hv _ hm), fun t i v hm => h2.2 t i v (hv _ hm)⟩
  defn := fun l d he => by
    obtain ⟨h1, c, h2, h3⟩ := h.defn l d he
    exact ⟨h1, c, hk _ _ h2, h3⟩
  lower := h.lower
  fresh := fun l k h1 h2 => lt_of_lt_of_le (h.fresh l k h1 h2) hn

theorem Grows.datum {ps ps' : PStuff} {o : PObj} {cst : Nat} {encSum : (AnyVar → Bool) → Nat}
    {dat : Option (Axm AnyVar) × Option Nat} (hg : Grows ord objs base ps ps')
    (h : DatumOk objs base ps o cst encSum dat) : DatumOk objs base ps' o cst encSum dat :=
  h.mono hg.keeps (fun ρ => (hg.agrees ρ).1) hg.values hg.nVars

theorem Spec.CutContract.mono {ps ps' : PStuff} {enc : EncView} {o : PObj} {cst : Nat} {encSum : (AnyVar → Bool) → Nat}
    (h : Spec.CutContract ps.proof.db (Spec.WitnessAgrees base ps.valueMap) enc o cst encSum)
    (hg : Grows ord objs base ps ps') :
    Spec.CutContract ps'.proof.db (Spec.WitnessAgrees base ps'.valueMap) enc o cst encSum where
  cost := fun ρ hw => h.cost ρ ((hg.agrees ρ).1 hw)
  reform := fun r hr => by
    obtain ⟨c, h1, h2⟩ := h.reform r hr
    exact ⟨c, hg.keeps _ _ h1, h2⟩
  plain := h.plain
  buffered := h.buffered
  output := fun hb hlt olit defs hd => by
    obtain ⟨h1, d, c, h2, h3, h4⟩ := h.output hb hlt olit defs hd
    exact ⟨fun ρ hw => h1 ρ ((hg.agrees ρ).1 hw), d, c, h2, hg.keeps _ _ h3, h4⟩
  single := fun hn hlt ls l h1 h2 => by
    obtain ⟨h3, h4⟩ := h.single hn hlt ls l h1 h2
    exact ⟨fun ρ hw => h3 ρ ((hg.agrees ρ).1 hw), fun ρ hρ => h4 ρ fun c hc => hρ c (live_of_keeps hg.keeps hc)⟩

theorem linear_single (a : Asg) (l : Lit) (w : Nat) : Spec.linear a [(l, w)] = if Spec.LitTrue a l then w else 0 := by
  simp [Spec.linear]

theorem toAxm_val (ρ : AnyVar → Bool) (l : Lit) :
    (toAxm l).val ρ = if Spec.LitTrue (Spec.solverAsg ρ) l then 1 else 0 := by
  unfold Axm.val toAxm Spec.LitTrue Spec.solverAsg
  simp only
  rcases Bool.eq_false_or_eq_true (ρ (.solver l.var)) with h1 | h1 <;>
    rcases Bool.eq_false_or_eq_true l.neg with h2 | h2 <;> simp [h1, h2]

theorem nLits_iter (o : Objective) : o.iter.length = o.nLits := by
  cases o <;> simp [Objective.iter, Objective.nLits]

/-- One entry of the cut. -/
theorem cutDatum_spec (hord : Spec.SolverOrder ord) {debug : Bool} {enc : EncView} {o : PObj} {cst : Nat} {ps ps' : PStuff}
    {encSum : (AnyVar → Bool) → Nat} {dat : Option (Axm AnyVar) × Option Nat}
    (h : cutDatum debug enc o cst ps = some (dat, ps')) (hl : Spec.LogState objs base ps)
    (ho : objs[o.obj.idx]? = some o.obj) (hw : ∃ ρ, Spec.WitnessAgrees base ps.valueMap ρ)
    (K : Spec.CutContract ps.proof.db (Spec.WitnessAgrees base ps.valueMap) enc o cst encSum) :
    Grows ord objs base ps ps' ∧ DatumOk objs base ps' o cst encSum dat := by
  unfold cutDatum at h
  by_cases hlb : cst ≤ o.obj.lowerBound
  · rw [if_pos hlb] at h
    split at h
    · cases h
    · simp only [Option.some.injEq, Prod.mk.injEq] at h
      obtain ⟨rfl, rfl⟩ := h
      refine ⟨Grows.refl hl, ⟨fun ρ hρ _ => ?_, fun _ _ _ l he => (by cases he), fun l d he => (by cases he),
        fun r he => ⟨(Prod.mk.inj he).2, hlb⟩, fun l k he => (by cases he)⟩⟩
      cases hr : o.reformId with
      | none =>
        have := (K.plain hr).1
        omega
      | some r =>
        obtain ⟨c, h1, h2⟩ := K.reform r hr
        have := (LbCon.holds_iff ρ c).1 (hρ c (mem_live_of_get h1))
        rw [h2] at this
        omega
  · rw [if_neg hlb] at h
    have hlt : o.obj.lowerBound < cst := by omega
    by_cases hn : o.obj.nLits = 1
    · rw [if_pos hn, ] at h
      have hlen := nLits_iter o.obj
      rw [hn] at hlen
      obtain ⟨⟨l, w⟩, hit⟩ := List.length_eq_one_iff.1 hlen
      rw [hit] at h
      simp only [Option.some.injEq, Prod.mk.injEq] at h
      obtain ⟨rfl, rfl⟩ := h
      have hsum : ∀ ρ, Spec.objSum o.obj ρ = if Spec.LitTrue (Spec.solverAsg ρ) l then w else 0 := fun ρ => by
        unfold Spec.objSum; rw [hit, linear_single]
      have hval : ∀ ρ : AnyVar → Bool, (toAxm l.not).val ρ = 0 ↔ Spec.LitTrue (Spec.solverAsg ρ) l := fun ρ => by
        rw [toAxm_not, Axm.val_not, toAxm_val]
        split <;> simp_all
      refine ⟨Grows.refl hl, ⟨fun ρ _ hf => ?_, fun ρ hρ _ l' he => ?_, fun l d he => (by cases he),
        fun r he => (by cases he), fun l k he hk => (by cases he; cases hk)⟩⟩
      · obtain ⟨ρ₀, hρ₀⟩ := hw
        have h1 := K.cost ρ₀ hρ₀
        rw [hsum] at h1 ⊢
        rw [if_pos ((hval ρ).1 (hf _ rfl))]
        split at h1 <;> omega
      · cases he
        rw [hval]
        have h1 := K.cost ρ hρ
        rw [hsum] at h1
        by_contra hc
        rw [if_neg hc] at h1
        omega
    · rw [if_neg hn] at h
      by_cases ho1 : enc.nOutputs = 1
      · rw [if_pos ho1] at h
        obtain ⟨ls, h1, h⟩ := Option.bind_eq_some_iff.1 h
        obtain ⟨l, h2, h⟩ := Option.bind_eq_some_iff.1 h
        simp only [Option.some.injEq, Prod.mk.injEq] at h
        obtain ⟨rfl, rfl⟩ := h
        obtain ⟨h3, h4⟩ := K.single ho1 hlt ls l h1 h2
        exact ⟨Grows.refl hl, ⟨fun ρ hρ hf => h4 ρ hρ (hf _ rfl), fun ρ hρ _ l' he => (by cases he; exact h3 ρ hρ),
          fun l d he => (by cases he), fun r he => (by cases he), fun l k he hk => (by cases he; cases hk)⟩⟩
      · rw [if_neg ho1] at h
        cases hb : enc.bufferEmpty with
        | true =>
          rw [hb, if_pos rfl] at h
          obtain ⟨⟨olit, defs⟩, h1, h⟩ := Option.bind_eq_some_iff.1 h
          obtain ⟨h2, d, c, h3, h4, h5⟩ := K.output hb hlt olit defs h1
          simp only at h
          split at h
          · cases h
          · simp only [Option.some.injEq, Prod.mk.injEq] at h
            obtain ⟨rfl, rfl⟩ := h
            have hval : ∀ ρ : AnyVar → Bool, (toAxm olit).not.val ρ = 1 - (toAxm olit).val ρ := fun ρ => Axm.val_not ρ _
            have hge : ∀ ρ, (∀ c ∈ Spec.live ps.proof.db, c.Holds ρ) →
                (encSum ρ : Int) + o.obj.lowerBound ≤ Spec.objSum o.obj ρ := by
              intro ρ hρ
              cases hr : o.reformId with
              | none =>
                obtain ⟨g1, g2⟩ := K.plain hr
                rw [g1, g2]; simp
              | some r =>
                obtain ⟨c', g1, g2⟩ := K.reform r hr
                have := (LbCon.holds_iff ρ c').1 (hρ c' (mem_live_of_get g1))
                rw [g2] at this
                omega
            refine ⟨Grows.refl hl, ⟨fun ρ hρ hf => ?_, fun ρ hρ _ l' he => ?_, fun l d' he => ?_,
              fun r he => (by cases he), fun l k he hk => (by cases he; cases hk)⟩⟩
            · have h6 := (LbCon.holds_iff ρ c).1 (hρ c (mem_live_of_get h4))
              have h7 := hf _ rfl
              rw [h5, ← hval, h7] at h6
              have := hge ρ hρ
              omega
            · cases he
              rw [hval, h2 ρ hρ]; omega
            · rw [h3] at he
              cases he
              exact ⟨by omega, c, h4, fun ρ => by rw [h5, hval]⟩
        | false =>
          rw [hb, if_neg (by simp)] at h
          obtain ⟨k, d₁, d₂, ps₁, he, g1, g2, g3, hg⟩ := getObjBound_logState hord (value := cst) ho hl
          rw [he] at h
          simp only [Option.some.injEq, Prod.mk.injEq] at h
          obtain ⟨rfl, rfl⟩ := h
          obtain ⟨q1, q2⟩ := K.plain (K.buffered hb)
          have hval : ∀ ρ : AnyVar → Bool, (⟨.proof k, false⟩ : Axm AnyVar).not.val ρ =
            1 - (⟨.proof k, false⟩ : Axm AnyVar).val ρ := fun ρ => Axm.val_not ρ _
          refine ⟨hg, ⟨fun ρ hρ hf => ?_, fun ρ hρ hm l' he => ?_, fun l d' he => ?_, fun r he => (by cases he),
            fun l j he hk => (by cases he; cases hk; exact hg.state.below _ g3 _ rfl)⟩⟩
          · have h6 := (LbCon.holds_iff ρ _).1 (hρ _ (mem_live_of_get g2))
            have h7 := hf _ rfl
            rw [boundDef₂_slack, ← hval, h7] at h6
            omega
          · cases he
            have h6 := hm.2 _ _ _ g3 _ ho
            have h7 := K.cost ρ ((hg.agrees ρ).1 hρ)
            rw [hval, h6.2 (by omega)]; omega
          · cases he
            refine ⟨by omega, _, g2, fun ρ => ?_⟩
            rw [boundDef₂_slack, hval, q1, q2]
            simp

open Spec (CutItem)

/-- All entries of the cut. -/
theorem cutData_spec (hord : Spec.SolverOrder ord) {debug : Bool} : ∀ {items : List CutItem} {ps ps' : PStuff}
    {ds : List (Option (Axm AnyVar) × Option Nat)},
    cutData debug (items.map CutItem.enc) (items.map CutItem.obj) (items.map CutItem.cost) ps = some (ds, ps') →
    Spec.LogState objs base ps → (∀ it ∈ items, objs[it.obj.obj.idx]? = some it.obj.obj) →
    (∃ ρ, Spec.WitnessAgrees base ps.valueMap ρ) →
    (∀ it ∈ items, Spec.CutContract ps.proof.db (Spec.WitnessAgrees base ps.valueMap) it.enc it.obj it.cost it.encSum) →
    Grows ord objs base ps ps' ∧
      List.Forall₂ (fun it d => DatumOk objs base ps' it.obj it.cost it.encSum d) items ds
  | [], ps, ps', ds, h, hl, _, _, _ => by
    simp only [List.map_nil, cutData, Option.some.injEq, Prod.mk.injEq] at h
    obtain ⟨rfl, rfl⟩ := h
    exact ⟨Grows.refl hl, .nil⟩
  | it :: items, ps, ps', ds, h, hl, ho, hw, hK => by
    simp only [List.map_cons, cutData] at h
    obtain ⟨⟨d, ps₁⟩, h1, h⟩ := Option.bind_eq_some_iff.1 h
    obtain ⟨⟨ds', ps₂⟩, h2, h⟩ := Option.bind_eq_some_iff.1 h
    simp only [Option.some.injEq, Prod.mk.injEq] at h
    obtain ⟨rfl, rfl⟩ := h
    obtain ⟨g1, g2⟩ := cutDatum_spec hord h1 hl (ho it (List.mem_cons_self ..)) hw (hK it (List.mem_cons_self ..))
    obtain ⟨g3, g4⟩ := cutData_spec hord h2 g1.state (fun i hi => ho i (List.mem_cons_of_mem _ hi))
      (hw.imp fun ρ hρ => (g1.agrees ρ).2 hρ) fun i hi => (hK i (List.mem_cons_of_mem _ hi)).mono g1
    exact ⟨g1.trans g3, .cons (g3.datum g2) g4⟩

theorem cutGoals_mem {negId : Nat} {g : Goal AnyVar} : ∀ {idx : Nat} {ds : List (Option (Axm AnyVar) × Option Nat)}
    {items : List CutItem}, g ∈ cutGoals negId idx ds (items.map CutItem.obj) (items.map CutItem.cost) →
    ∃ (j : Nat) (it : CutItem) (d : Option (Axm AnyVar) × Option Nat), items[j]? = some it ∧ ds[j]? = some d ∧ cutGoal negId (idx + j) d it.obj it.cost = some g
  | _, [], _, h => by simp [cutGoals] at h
  | _, _ :: _, [], h => by simp [cutGoals] at h
  | idx, d :: ds, it :: items, h => by
    simp only [List.map_cons, cutGoals, List.mem_append, Option.mem_toList, Option.mem_def] at h
    rcases h with h | h
    · exact ⟨0, it, d, rfl, rfl, h⟩
    · obtain ⟨j, it', d', h1, h2, h3⟩ := cutGoals_mem h
      exact ⟨j + 1, it', d', h1, h2, by rw [← h3]; congr 1; omega⟩

theorem witnessAgrees_exists (base : Assignment) (m : List (Axm AnyVar × ProofVal)) :
    ∃ ρ, Spec.WitnessAgrees base m ρ := by
  refine ⟨fun x => match x with
    | .proof _ => false
    | .solver v => decide (base[v]? = some .tt), fun v b hv _ => ?_⟩
  simp only [hv]
  cases b <;> simp [TV.ofBool]

theorem foldl_assignLit_other (ls : List Lit) (v : Nat) (b : Bool) (h : ∀ l ∈ ls, l.var ≠ v) : ∀ a : Assignment,
    ((ls.foldl Assignment.assignLit a)[v]? = some (TV.ofBool b) ↔ a[v]? = some (TV.ofBool b)) := by
  induction ls with
  | nil => intro a; rfl
  | cons l ls ih =>
    intro a
    rw [List.foldl_cons, ih fun l' h' => h l' (List.mem_cons_of_mem _ h'), assignLit_get,
      if_neg fun he => h l (List.mem_cons_self ..) he.symm]

/-- Variables that no encoding gives a value have the value of the witness. -/
theorem cutBase_get {encs : List EncView} {witness : Assignment} {v : Nat} {b : Bool}
    (h : ∀ enc ∈ encs, ∀ l ∈ enc.extend witness, l.var ≠ v) :
    (cutBase encs witness)[v]? = some (TV.ofBool b) ↔ witness[v]? = some (TV.ofBool b) := by
  unfold cutBase Assignment.ofLits
  rw [List.foldl_append, foldl_assignLit_other _ v b]
  · have hc : ∀ l ∈ witness.toLits, ∀ l' ∈ witness.toLits, l.var = l'.var → l = l' := by
      intro l hl l' hl' he
      rw [mem_toLits] at hl hl'
      rw [he, hl'] at hl
      obtain ⟨x, y⟩ := l
      obtain ⟨x', y'⟩ := l'
      simp only at he hl
      subst he
      cases y <;> cases y' <;> simp [TV.ofBool] at hl ⊢
    have := ofLits_get witness.toLits v b hc
    unfold Assignment.ofLits at this
    rw [this, mem_toLits]
    simp
  · intro l hl
    obtain ⟨enc, he, hl⟩ := List.mem_flatMap.1 hl
    exact h enc he l hl

theorem orderGoal_slack (o : Objective) (cst : Nat) (ρ : AnyVar → Bool) :
    (Spec.orderGoal o cst).slack ρ = (o.unitWeight : Int) * Spec.objSum o ρ - o.unitWeight * cst := by
  rw [LbCon.slack_def]
  unfold Spec.orderGoal
  simp only
  rw [show Spec.objSum o ρ = Spec.linear (Spec.solverAsg ρ) o.iter from rfl, ← sum_axm]
  congr 1
  induction o.iter with
  | nil => simp
  | cons p l ih =>
    simp only [List.map_cons, List.sum_cons] at ih ⊢
    rw [ih]; ring

/-- The subproof of an objective. -/
theorem cutGoal_ok {ps : PStuff} {it : CutItem} {d : Option (Axm AnyVar) × Option Nat} {idx : Nat} {g : Goal AnyVar}
    {ω cut : List (Axm AnyVar)} (h : cutGoal ps.proof.nextId idx d it.obj it.cost = some g)
    (hd : DatumOk objs base ps it.obj it.cost it.encSum d)
    (K : Spec.CutContract ps.proof.db (Spec.WitnessAgrees base ps.valueMap) it.enc it.obj it.cost it.encSum)
    (hcut : ∀ l, d.1 = some l → l ∈ cut)
    (hunit : it.obj.reformId.isSome → it.cost ≤ it.obj.obj.lowerBound → it.obj.obj.unitWeight = 1) (junk : ConDb AnyVar) :
    g.id = .specific (idx + 2) ∧ Spec.SubproofOk (ps.proof.db ++ [some (mapDomCon ω cut).neg] ++ junk ++
      [some (Spec.orderGoal it.obj.obj it.cost).neg]) g.derivs := by
  generalize hdb : ps.proof.db ++ [some (mapDomCon ω cut).neg] ++ junk ++
      [some (Spec.orderGoal it.obj.obj it.cost).neg] = db
  have hold : ∀ i c, ps.proof.db.get i = some c → ConDb.get db i = some c := by
    intro i c hc
    rw [← hdb, List.append_assoc, List.append_assoc]
    exact ConDb.get_append _ hc
  have hneg : ConDb.get db ps.proof.nextId = some (mapDomCon ω cut).neg := by
    rw [← hdb, List.append_assoc]
    exact ConDb.get_append _ (ConDb.get_new _ _)
  have hlen : 0 < db.length := by rw [← hdb]; simp
  have hlast : ConDb.get db db.length = some (Spec.orderGoal it.obj.obj it.cost).neg := by
    rw [← hdb, List.length_append]
    exact ConDb.get_new _ _
  have hlast1 : ConDb.find db (.last 1) = some (Spec.orderGoal it.obj.obj it.cost).neg := by
    unfold ConDb.find
    simp only
    rw [if_neg (by omega), if_pos (by omega), Nat.add_sub_cancel, hlast]
  rcases d with ⟨_ | l, _ | r⟩
  · simp [cutGoal] at h
  · simp only [cutGoal, Option.some.injEq] at h
    subst h
    refine ⟨rfl, ?_⟩
    obtain ⟨h1, h2⟩ := hd.lower r rfl
    obtain ⟨c, h3, h4⟩ := K.reform r h1
    have hu := hunit (by rw [h1]; rfl) h2
    refine ⟨c.add (Spec.orderGoal it.obj.obj it.cost).neg, ?_, c.add (Spec.orderGoal it.obj.obj it.cost).neg, by simp, ?_⟩
    · simp only [Ops.eval, ConDb.find_abs, hold _ _ h3, hlast1]
      rfl
    · intro ρ
      rw [LbCon.holds_iff, LbCon.slack_add, LbCon.slack_neg, h4, orderGoal_slack, hu]
      push_cast
      omega
  · simp [cutGoal] at h
  · simp only [cutGoal, Option.some.injEq] at h
    subst h
    refine ⟨rfl, ⟨[(mapDomCon ω cut).neg], ?_, cutLit_rup ω cut (hcut l rfl)⟩, ?_⟩
    · simp [ConDb.find_abs, hneg]
    · obtain ⟨h1, c, h2, h3⟩ := hd.defn l r rfl
      generalize hdb2 : db ++ [some (LbCon.clause [l.not])] = db2
      have hl1 : ConDb.find db2 (.last 1) = some (LbCon.clause [l.not]) := by
        unfold ConDb.find
        simp only
        rw [← hdb2, if_neg (by omega), if_pos (by simp), List.length_append]
        exact ConDb.get_new _ _
      have hl2 : ConDb.find db2 (.last 2) = some (Spec.orderGoal it.obj.obj it.cost).neg := by
        unfold ConDb.find
        simp only
        rw [← hdb2, if_neg (by omega), if_pos (by simp; omega), List.length_append]
        simp only [List.length_cons, List.length_nil, Nat.add_sub_cancel]
        exact ConDb.get_append _ hlast
      have hdef : ConDb.find db2 (.abs r) = some c := by
        rw [ConDb.find_abs, ← hdb2]; exact ConDb.get_append _ (hold _ _ h2)
      have hcl : ∀ ρ, (LbCon.clause [l.not]).slack ρ = - l.val ρ := fun ρ => by
        rw [LbCon.slack_clause]
        simp only [List.map_cons, List.map_nil, List.sum_cons, List.sum_nil]
        rw [Axm.val_not]; omega
      have hfin : ∀ (x : LbCon AnyVar), (∀ ρ, x.slack ρ ≤ -1) → Spec.Contradiction x := fun x hx ρ hh => by
        have := (LbCon.holds_iff ρ x).1 hh
        have := hx ρ
        omega
      have hsub : ((it.cost - it.obj.obj.lowerBound : Nat) : Int) = (it.cost : Int) - it.obj.obj.lowerBound := by omega
      cases hr : it.obj.reformId with
      | none =>
        obtain ⟨q1, q2⟩ := K.plain hr
        refine ⟨_, by simp only [Ops.eval, hl1, hl2, hdef]; rfl, _, by simp; rfl, hfin _ fun ρ => ?_⟩
        rw [LbCon.slack_add, LbCon.slack_mul, LbCon.slack_add, LbCon.slack_mul, hcl, h3, LbCon.slack_neg, orderGoal_slack,
          hsub, q1, q2]
        have : (it.obj.obj.unitWeight : Int) * (((it.cost : Int) - (0 : Nat)) * -l.val ρ +
            ((Spec.objSum it.obj.obj ρ : Int) + ((it.cost : Int) - (0 : Nat)) * l.val ρ - ((it.cost : Int) - (0 : Nat)))) +
            (-((it.obj.obj.unitWeight : Int) * Spec.objSum it.obj.obj ρ - it.obj.obj.unitWeight * it.cost) - 1) = -1 := by
          push_cast; ring
        rw [this]
      | some rid =>
        obtain ⟨c', g1, g2⟩ := K.reform rid hr
        have hre : ConDb.find db2 (.abs rid) = some c' := by
          rw [ConDb.find_abs, ← hdb2]; exact ConDb.get_append _ (hold _ _ g1)
        refine ⟨_, by simp only [Ops.eval, hl1, hl2, hdef, hre]; rfl, _, by simp; rfl, hfin _ fun ρ => ?_⟩
        rw [LbCon.slack_add, LbCon.slack_mul, LbCon.slack_add, LbCon.slack_add, LbCon.slack_mul, hcl, h3, g2,
          LbCon.slack_neg, orderGoal_slack, hsub]
        have : (it.obj.obj.unitWeight : Int) * (((it.cost : Int) - it.obj.obj.lowerBound) * -l.val ρ +
            ((it.encSum ρ : Int) + ((it.cost : Int) - it.obj.obj.lowerBound) * l.val ρ -
              ((it.cost : Int) - it.obj.obj.lowerBound)) +
            ((Spec.objSum it.obj.obj ρ : Int) - it.encSum ρ - it.obj.obj.lowerBound)) +
            (-((it.obj.obj.unitWeight : Int) * Spec.objSum it.obj.obj ρ - it.obj.obj.unitWeight * it.cost) - 1) = -1 := by
          ring
        rw [this]

/-! ## The lines of the cut -/

/-- The lines that `certify_pmin_cut` ends with. -/
def cutLines (n : Nat) (ω cut : List (Axm AnyVar)) (goals : List (Goal AnyVar)) (ls : List (Axm AnyVar)) :
    List (ProofStep AnyVar) :=
  [.red (mapDomCon ω cut) ω goals, .solx ls ω, .rup (.clause cut) [.abs (n + 1), .abs (n + 2)], .core [n + 3],
    .del [n + 2, n + 1] [⟨.specific 1, [.rup (.clause []) [.last 1, .abs (n + 3)]]⟩]]

theorem certifyPminCut_run {debug : Bool} {encs : List EncView} {pobjs : List PObj} {costs : List Nat}
    {witness : Assignment} {maxEncVar cutId : Nat} {ps ps' : PStuff}
    (h : certifyPminCut debug encs pobjs costs witness maxEncVar ps = some (cutId, ps')) :
    ∃ ds ps₁ ω, cutData debug encs pobjs costs ps = some (ds, ps₁) ∧
      fixedWitness encs costs witness ps₁.valueMap = some ω ∧ cutId = ps₁.proof.db.length + 3 ∧
      ps'.proof.steps = ps₁.proof.steps ++ cutLines ps₁.proof.db.length ω (ds.filterMap Prod.fst)
        (cutGoals ps₁.proof.nextId 0 ds pobjs costs) ((witness.truncate maxEncVar).toLits.map toAxm) ∧
      ps'.proof.db = (ps₁.proof.db ++ [some (mapDomCon ω (ds.filterMap Prod.fst))] ++ [some (LbCon.clause (ω.map Axm.not))] ++
        [some (LbCon.clause (ds.filterMap Prod.fst))]).delete [ps₁.proof.db.length + 2, ps₁.proof.db.length + 1] ∧
      ps'.valueMap = ps₁.valueMap ∧ ps'.bounds = ps₁.bounds ∧ ps'.added = ps₁.added ∧
      ps'.proof.nProofVars = ps₁.proof.nProofVars := by
  unfold certifyPminCut at h
  obtain ⟨⟨ds, ps₁⟩, h1, h⟩ := Option.bind_eq_some_iff.1 h
  obtain ⟨ω, h2, h⟩ := Option.bind_eq_some_iff.1 h
  simp only [Option.some.injEq, Prod.mk.injEq] at h
  obtain ⟨rfl, rfl⟩ := h
  refine ⟨ds, ps₁, ω, h1, h2, ?_, ?_, ?_, rfl, rfl, rfl, rfl⟩
  · simp [PStuff.push, Pf.push, Pf.nextId, Pf.write, ProofStep.apply]
  · simp [PStuff.push, PStuff.write, Pf.push, Pf.nextId, Pf.write, ProofStep.apply, cutLines]
  · simp [PStuff.push, PStuff.write, Pf.push, Pf.nextId, Pf.write, ProofStep.apply]

theorem paretoOrder_solver (objs : List Objective) : Spec.SolverOrder (Spec.ParetoOrder objs) := by
  intro a b h
  unfold Spec.ParetoOrder
  rw [h]
  unfold Spec.WeaklyDominates
  rw [List.forall₂_same]
  intro _ _; exact le_refl _

theorem objValue_le (o : Objective) {a b : AnyVar → Bool} (h : Spec.objSum o a ≤ Spec.objSum o b) :
    Spec.objValue o (Spec.solverAsg a) ≤ Spec.objValue o (Spec.solverAsg b) := by
  rw [objValue_iter, objValue_iter]
  have : ((Spec.objSum o a : Nat) : Int) ≤ Spec.objSum o b := by exact_mod_cast h
  have := Int.mul_le_mul_of_nonneg_left this (Int.natCast_nonneg o.unitWeight)
  unfold Spec.objSum at this
  omega

/-- What the lines of `certify_pmin_cut` rest on. -/
structure CutFacts (items : List CutItem) (witness : Assignment) (ps₁ : PStuff) (ω cut : List (Axm AnyVar)) : Prop where
  consistent : ∀ x ∈ ω, ∀ y ∈ ω, x.var = y.var → x = y
  mapped : ∀ ρ, (∀ a ∈ ω, ρ a.var = !a.neg) → Spec.WitnessAgrees (cutBase (items.map CutItem.enc) witness) ps₁.valueMap ρ ∧
    Spec.Meaning (items.map CutItem.objective) ps₁.valueMap ρ
  solves : ∀ ρ, (∀ a ∈ ω, ρ a.var = !a.neg) → ∀ c ∈ Spec.live ps₁.proof.db, c.Holds ρ
  cost : ∀ ρ, (∀ a ∈ ω, ρ a.var = !a.neg) → ∀ it ∈ items, Spec.objSum it.objective ρ = it.cost
  atLeast : ∀ ρ, (∀ c ∈ Spec.live ps₁.proof.db, c.Holds ρ) → (∀ l ∈ cut, l.val ρ = 0) →
    ∀ it ∈ items, it.cost ≤ Spec.objSum it.objective ρ
  falsified : ∀ ρ, Spec.WitnessAgrees (cutBase (items.map CutItem.enc) witness) ps₁.valueMap ρ →
    Spec.Meaning (items.map CutItem.objective) ps₁.valueMap ρ → ∀ l ∈ cut, l.val ρ = 0
  fresh : ∀ l ∈ cut, ∀ k, l.var = .proof k → k < ps₁.proof.nProofVars

theorem cutFacts {items : List CutItem} {witness : Assignment} {ps₁ : PStuff} {ω : List (Axm AnyVar)}
    {ds : List (Option (Axm AnyVar) × Option Nat)}
    (hω : fixedWitness (items.map CutItem.enc) (items.map CutItem.cost) witness ps₁.valueMap = some ω)
    (hl : Spec.LogState (items.map CutItem.objective) (cutBase (items.map CutItem.enc) witness) ps₁)
    (hd : List.Forall₂ (fun it d => DatumOk (items.map CutItem.objective) (cutBase (items.map CutItem.enc) witness) ps₁
      it.obj it.cost it.encSum d) items ds)
    (hK : ∀ it ∈ items, Spec.CutContract ps₁.proof.db
      (Spec.WitnessAgrees (cutBase (items.map CutItem.enc) witness) ps₁.valueMap) it.enc it.obj it.cost it.encSum) :
    CutFacts items witness ps₁ ω (ds.filterMap Prod.fst) := by
  have hm : ∀ ρ, (∀ a ∈ ω, ρ a.var = !a.neg) →
      Spec.WitnessAgrees (cutBase (items.map CutItem.enc) witness) ps₁.valueMap ρ ∧
      Spec.Meaning (items.map CutItem.objective) ps₁.valueMap ρ := by
    intro ρ hρ
    refine subst_meaning hω hl ?_ hρ
    intro ρ' hw i o c ho hc
    rw [List.getElem?_map, Option.map_eq_some_iff] at ho hc
    obtain ⟨it, hi, rfl⟩ := ho
    obtain ⟨it', hi', rfl⟩ := hc
    rw [hi] at hi'
    cases hi'
    exact (hK it (List.mem_of_getElem? hi)).cost ρ' hw
  have hitem : ∀ l ∈ ds.filterMap Prod.fst, ∃ (it : CutItem) (d : Option (Axm AnyVar) × Option Nat), d.1 = some l ∧
      DatumOk (items.map CutItem.objective) (cutBase (items.map CutItem.enc) witness) ps₁ it.obj it.cost it.encSum d := by
    intro l hl'
    obtain ⟨d, hdm, hd1⟩ := List.mem_filterMap.1 hl'
    obtain ⟨i, hi, rfl⟩ := List.getElem_of_mem hdm
    have := (List.forall₂_iff_get.1 hd)
    exact ⟨items[i]'(by rw [this.1]; exact hi), ds[i], hd1, this.2 i _ hi⟩
  refine ⟨(fixedWitness_spec hω hl.keys hl.identical).1, hm, fun ρ hρ => ?_, fun ρ hρ it hi => ?_, fun ρ hρ hc it hi => ?_,
    fun ρ hw hmn l hlc => ?_, fun l hlc k hk => ?_⟩
  · obtain ⟨h1, h2⟩ := hm ρ hρ
    exact hl.solves ρ h1 h2
  · exact (hK it hi).cost ρ (hm ρ hρ).1
  · obtain ⟨i, hlt, rfl⟩ := List.getElem_of_mem hi
    have := (List.forall₂_iff_get.1 hd)
    have hlt' : i < ds.length := by rw [← this.1]; exact hlt
    refine (this.2 i hlt hlt').atLeast ρ hρ fun l hl' => hc l ?_
    exact List.mem_filterMap.2 ⟨ds[i], List.getElem_mem _, hl'⟩
  · obtain ⟨it, d, h1, h2⟩ := hitem l hlc
    exact h2.witness ρ hw hmn l h1
  · obtain ⟨it, d, h1, h2⟩ := hitem l hlc
    exact h2.fresh l k h1 hk

theorem CutFacts.dominates {items : List CutItem} {witness : Assignment} {ps₁ : PStuff} {ω cut : List (Axm AnyVar)}
    (F : CutFacts items witness ps₁ ω cut) {ρ ρ' : AnyVar → Bool} (hρ : ∀ c ∈ Spec.live ps₁.proof.db, c.Holds ρ)
    (hc : ∀ l ∈ cut, l.val ρ = 0) (hρ' : ∀ a ∈ ω, ρ' a.var = !a.neg) :
    Spec.ParetoOrder (items.map CutItem.objective) ρ' ρ := by
  unfold Spec.ParetoOrder Spec.WeaklyDominates
  rw [List.forall₂_map_left_iff, List.forall₂_map_right_iff, List.forall₂_same]
  intro o ho
  obtain ⟨it, hi, rfl⟩ := List.mem_map.1 ho
  apply objValue_le
  rw [F.cost ρ' hρ' it hi]
  exact F.atLeast ρ hρ hc it hi

theorem not_clause {ρ : AnyVar → Bool} {cut : List (Axm AnyVar)} :
    ¬ (LbCon.clause cut).Holds ρ ↔ ∀ l ∈ cut, l.val ρ = 0 := by
  rw [LbCon.holds_clause]
  constructor
  · intro h l hl
    rw [Axm.val_eq_zero]
    by_contra hne
    refine h ⟨l, hl, ?_⟩
    revert hne
    cases ρ l.var <;> cases l.neg <;> simp
  · rintro h ⟨l, hl, hv⟩
    have := h l hl
    rw [← Axm.val_eq_one] at hv
    omega

theorem mapDom_redundant {items : List CutItem} {witness : Assignment} {ps₁ : PStuff} {ω cut : List (Axm AnyVar)}
    (F : CutFacts items witness ps₁ ω cut) :
    Spec.Redundant (Spec.ParetoOrder (items.map CutItem.objective)) (Spec.live ps₁.proof.db) (mapDomCon ω cut) ω := by
  intro ρ hρ hn
  have hω : ∀ a ∈ ω, Spec.subst ω ρ a.var = !a.neg := fun a ha => subst_true F.consistent ρ ha
  rw [mapDom_holds, not_or] at hn
  refine ⟨F.solves _ hω, (mapDom_holds ω cut _).2 (Or.inr hω), F.dominates hρ ?_ hω⟩
  rw [← not_clause, LbCon.holds_clause]
  exact hn.1

/-- Objectives with one literal have its negation in the cut. -/
theorem cutData_single {debug : Bool} : ∀ {items : List CutItem} {ps ps' : PStuff}
    {ds : List (Option (Axm AnyVar) × Option Nat)},
    cutData debug (items.map CutItem.enc) (items.map CutItem.obj) (items.map CutItem.cost) ps = some (ds, ps') →
    ∀ it ∈ items, it.obj.obj.lowerBound < it.cost → it.obj.obj.nLits = 1 →
      ∃ p, it.obj.obj.iter = [p] ∧ toAxm p.1.not ∈ ds.filterMap Prod.fst
  | [], _, _, _, _, _, hi, _, _ => by cases hi
  | it :: items, ps, ps', ds, h, i, hi, hlt, hn => by
    simp only [List.map_cons, cutData] at h
    obtain ⟨⟨d, ps₁⟩, h1, h⟩ := Option.bind_eq_some_iff.1 h
    obtain ⟨⟨ds', ps₂⟩, h2, h⟩ := Option.bind_eq_some_iff.1 h
    simp only [Option.some.injEq, Prod.mk.injEq] at h
    obtain ⟨rfl, rfl⟩ := h
    rcases List.mem_cons.1 hi with rfl | hi
    · unfold cutDatum at h1
      rw [if_neg (by omega), if_pos hn] at h1
      have hlen := nLits_iter i.obj.obj
      rw [hn] at hlen
      obtain ⟨p, hit⟩ := List.length_eq_one_iff.1 hlen
      rw [hit] at h1
      simp only [Option.some.injEq, Prod.mk.injEq] at h1
      obtain ⟨rfl, rfl⟩ := h1
      exact ⟨p, hit, List.mem_filterMap.2 ⟨_, List.mem_cons_self .., rfl⟩⟩
    · obtain ⟨p, q1, q2⟩ := cutData_single h2 i hi hlt hn
      obtain ⟨d', q3, q4⟩ := List.mem_filterMap.1 q2
      exact ⟨p, q1, List.mem_filterMap.2 ⟨d', List.mem_cons_of_mem _ q3, q4⟩⟩

end Scuttle
