import Verif.Proof.CoreGuided

/-!
# Rules for the OLL algorithm
-/

set_option linter.unusedSectionVars false

namespace Scuttle

open Spec

variable {P C D : Type} [UbEnc P] [UbEnc C] [LawfulUbEnc P] [LawfulUbEnc C] [TotDb D] [LawfulTotDb D]
variable {env : Env} {s s' s'' : Slv P C} {pb : Pb} {d d' d'' : D} {n fuel N : Nat} {o : Objective}
  {E : Stop → Slv P C → Prop}

open TotSem (Node Inner cnt Sound Exact Below Inputs Base IsOut)

/-! ## Inactive literals -/

namespace Inactives

/-- The literals with their weights; literals that turned active have weight 0. -/
def wts : Inactives → List (Lit × Nat)
  | .weighted m => m
  | .unweighted lits active => lits.map fun l => (l, if l ∈ active then 0 else 1)
  | .constant => []

def isUnw : Inactives → Bool
  | .unweighted .. => true
  | _ => false

/-- Active literals are among the literals, and there are literals. -/
def Good : Inactives → Prop
  | .weighted _ => True
  | .unweighted lits active => ∀ a ∈ active, a ∈ lits
  | .constant => False

theorem wts_cleanup (i : Inactives) : i.cleanup.wts = i.wts.filter (fun p => p.2 > 0) ∨ ∃ m, i = .weighted m := by
  cases i with
  | weighted m => exact .inr ⟨m, rfl⟩
  | constant => exact .inl rfl
  | unweighted lits active =>
    left
    simp only [cleanup, wts]
    induction lits with
    | nil => rfl
    | cons l lits ih =>
      simp only [List.filter_cons, List.map_cons]
      by_cases h : l ∈ active
      · simpa [h] using ih
      · simpa [h] using ih

theorem cleanup_wts (i : Inactives) : i.cleanup.wts = i.wts.filter (fun p => p.2 > 0) := by
  rcases i.wts_cleanup with h | ⟨m, rfl⟩
  · exact h
  · rfl

theorem finalCleanup_shape (i : Inactives) : i.finalCleanup ≠ .constant → i.finalCleanup.iter ≠ [] := by
  unfold finalCleanup
  cases i.cleanup with
  | weighted m => cases m <;> simp [iter]
  | unweighted lits active => cases lits <;> simp [iter]
  | constant => simp

theorem finalCleanup_iter (i : Inactives) : i.finalCleanup.iter = i.wts.filter (fun p => p.2 > 0) := by
  rw [← cleanup_wts]
  unfold finalCleanup
  cases i with
  | weighted m =>
    simp only [cleanup]
    split
    · next h => simp only [weighted.injEq] at h; simp [wts, iter, h]
    · next h => simp at h
    · rfl
  | constant => rfl
  | unweighted lits active =>
    simp only [cleanup]
    split
    · next h => simp at h
    · next h =>
      simp only [unweighted.injEq] at h
      simp only [wts, iter]
      rw [h.1]
      rfl
    · simp [wts, iter]

theorem wp_relax {i : Inactives} {l : Lit} {w cw : Nat} {Q : Inactives × Nat → Slv P C → Prop} (hg : i.Good)
    (hk : (i.wts.map Prod.fst).Nodup) (hl : (l, w) ∈ i.wts) (hw : cw ≤ w) (h1 : i.isUnw = true → cw = 1)
    (hQ : ∀ r : Inactives × Nat, r.1.wts = subKey l cw i.wts → r.2 = w - cw → r.1.isUnw = i.isUnw → r.1.Good → Q r s) :
    wp env (i.relax l cw) Q E s := by
  cases i with
  | weighted m =>
    have : mapGet l m = some w := mapGet_of_mem hk hl
    simp only [relax, this]
    rw [if_neg (by omega), wp_pure]
    exact hQ _ rfl rfl rfl trivial
  | unweighted lits active =>
    have hc := h1 rfl
    subst hc
    simp only [relax]
    rw [wp_bind]
    refine wp_dbg (by rfl) ?_
    rw [wp_pure]
    simp only [wts, List.mem_map, Prod.mk.injEq] at hl
    obtain ⟨x, hx, rfl, rfl⟩ := hl
    refine hQ _ ?_ ?_ rfl ?_
    · simp only [wts, subKey, List.map_map]
      refine List.map_congr_left fun y _ => ?_
      simp only [Function.comp, List.mem_cons]
      by_cases hy : y = x
      · subst hy; simp; split <;> rfl
      · simp [hy]
    · simp only; split <;> rfl
    · intro a ha
      rcases List.mem_cons.1 ha with rfl | ha
      · exact hx
      · exact hg a ha
  | constant => exact hg.elim

theorem wp_insert {i : Inactives} {l : Lit} {w : Nat} {Q : Inactives → Slv P C → Prop} (hg : i.Good)
    (hl : l ∉ i.wts.map Prod.fst) (h1 : i.isUnw = true → w = 1)
    (hQ : ∀ r : Inactives, r.wts = i.wts ++ [(l, w)] → r.isUnw = i.isUnw → r.Good → Q r s) :
    wp env (i.insert l w) Q E s := by
  cases i with
  | weighted m =>
    simp only [insert]
    rw [wp_pure]
    refine hQ _ ?_ rfl trivial
    simp only [wts]
    exact mapInsert_new _ _ _ hl
  | unweighted lits active =>
    have hc := h1 rfl
    subst hc
    simp only [insert]
    rw [wp_bind]
    refine wp_dbg (by rfl) ?_
    rw [wp_pure]
    have hlits : l ∉ lits := by
      intro h
      apply hl
      simp only [wts, List.map_map, List.mem_map, Function.comp]
      exact ⟨l, h, rfl⟩
    refine hQ _ ?_ rfl ?_
    · simp only [wts, List.map_append, List.map_cons, List.map_nil]
      rw [if_neg (fun h => hlits (hg l h))]
    · intro a ha
      exact List.mem_append.2 (.inl (hg a ha))
  | constant => exact hg.elim

end Inactives

/-! ## Assumptions -/

/-- The assumptions are negations of literals and include those of positive weight. -/
structure RestOK (rest : List Lit) (I : List (Lit × Nat)) : Prop where
  nodup : rest.Nodup
  keys : ∀ a ∈ rest, a.not ∈ I.map Prod.fst
  all : ∀ l w, (l, w) ∈ I → 0 < w → l.not ∈ rest

theorem mem_insertDesc (p q : Lit × Nat) (l : List (Lit × Nat)) : q ∈ insertDesc p l ↔ q = p ∨ q ∈ l := by
  induction l with
  | nil => simp [insertDesc]
  | cons a l ih =>
    simp only [insertDesc]
    split
    · simp only [List.mem_cons, ih]; tauto
    · simp only [List.mem_cons]

theorem mem_sortDesc (q : Lit × Nat) (l : List (Lit × Nat)) : q ∈ sortDesc l ↔ q ∈ l := by
  induction l with
  | nil => simp [sortDesc]
  | cons a l ih => simp only [sortDesc, mem_insertDesc, ih, List.mem_cons]

theorem insertDesc_nodup (p : Lit × Nat) (l : List (Lit × Nat)) (h : (l.map Prod.fst).Nodup) (hp : p.1 ∉ l.map Prod.fst) :
    ((insertDesc p l).map Prod.fst).Nodup := by
  induction l with
  | nil => simp [insertDesc]
  | cons a l ih =>
    simp only [insertDesc]
    simp only [List.map_cons, List.nodup_cons, List.mem_cons, not_or] at h hp
    split
    · simp only [List.map_cons, List.nodup_cons]
      refine ⟨fun hm => ?_, ih h.2 hp.2⟩
      obtain ⟨q, hq, he⟩ := List.mem_map.1 hm
      rcases (mem_insertDesc p q l).1 hq with rfl | hq
      · exact hp.1 he
      · exact h.1 (List.mem_map.2 ⟨q, hq, he⟩)
    · simp only [List.map_cons, List.nodup_cons, List.mem_cons, not_or]
      exact ⟨hp, h⟩

theorem sortDesc_nodup (l : List (Lit × Nat)) (h : (l.map Prod.fst).Nodup) : ((sortDesc l).map Prod.fst).Nodup := by
  induction l with
  | nil => simp [sortDesc]
  | cons a l ih =>
    simp only [List.map_cons, List.nodup_cons] at h
    refine insertDesc_nodup a _ (ih h.2) fun hm => h.1 ?_
    obtain ⟨q, hq, he⟩ := List.mem_map.1 hm
    exact List.mem_map.2 ⟨q, (mem_sortDesc q l).1 hq, he⟩

theorem insertDesc_sorted (p : Lit × Nat) (l : List (Lit × Nat)) (h : l.Pairwise fun a b => b.2 ≤ a.2) :
    (insertDesc p l).Pairwise fun a b => b.2 ≤ a.2 := by
  induction l with
  | nil => simp [insertDesc]
  | cons a l ih =>
    rw [List.pairwise_cons] at h
    simp only [insertDesc]
    split
    · next hlt =>
      rw [List.pairwise_cons]
      refine ⟨fun q hq => ?_, ih h.2⟩
      rcases (mem_insertDesc p q l).1 hq with rfl | hq
      · omega
      · exact h.1 q hq
    · next hlt =>
      rw [List.pairwise_cons, List.pairwise_cons]
      refine ⟨fun q hq => ?_, h⟩
      rcases List.mem_cons.1 hq with rfl | hq
      · omega
      · have := h.1 q hq; omega

theorem sortDesc_sorted (l : List (Lit × Nat)) : (sortDesc l).Pairwise fun a b => b.2 ≤ a.2 := by
  induction l with
  | nil => simp [sortDesc]
  | cons a l ih => exact insertDesc_sorted a _ ih

theorem dropWhile_eq_filter (l : List (Lit × Nat)) (h : l.Pairwise fun a b => a.2 ≤ b.2) :
    l.dropWhile (fun p => p.2 == 0) = l.filter fun p => p.2 > 0 := by
  induction l with
  | nil => rfl
  | cons a l ih =>
    rw [List.pairwise_cons] at h
    simp only [List.dropWhile_cons, List.filter_cons]
    by_cases ha : a.2 = 0
    · simp only [ha]
      simpa using ih h.2
    · have ha' : 0 < a.2 := by omega
      simp only [ha', decide_true, if_true]
      rw [if_neg (by simpa using ha)]
      congr 1
      symm
      rw [List.filter_eq_self]
      intro q hq
      have := h.1 q hq
      simp; omega

theorem popZeros_eq (l : List (Lit × Nat)) (h : l.Pairwise fun a b => b.2 ≤ a.2) :
    popZeros l = l.filter fun p => p.2 > 0 := by
  unfold popZeros
  rw [dropWhile_eq_filter _ (List.pairwise_reverse.2 h), List.filter_reverse, List.reverse_reverse]

theorem withWeights_spec (m : List (Lit × Nat)) (rest : List Lit) (h : ∀ a ∈ rest, a.not ∈ m.map Prod.fst) :
    ∃ ws, withWeights m rest = some ws ∧ ws.map Prod.fst = rest ∧ ∀ a w, (a, w) ∈ ws → (a.not, w) ∈ m := by
  induction rest with
  | nil => exact ⟨[], rfl, rfl, by simp⟩
  | cons a rest ih =>
    obtain ⟨ws, h1, h2, h3⟩ := ih fun b hb => h b (by simp [hb])
    have ha := h a (by simp)
    cases hg : mapGet a.not m with
    | none => exact absurd ha (mapGet_none.1 hg)
    | some w =>
      refine ⟨(a, w) :: ws, by simp [withWeights, hg, h1], by simp [h2], ?_⟩
      intro b v hb
      rcases List.mem_cons.1 hb with he | hb
      · simp only [Prod.mk.injEq] at he
        obtain ⟨rfl, rfl⟩ := he
        exact mapGet_mem hg
      · exact h3 b v hb

theorem wp_ollPrepare {i : Inactives} {rest : List Lit} {Q : Inactives × List Lit → Slv P C → Prop}
    (hg : i.Good) (hk : (i.wts.map Prod.fst).Nodup) (hr : RestOK rest i.wts)
    (hQ : ∀ r : Inactives × List Lit, (r.1.wts = i.wts ∨ r.1.wts = i.wts.filter fun p => p.2 > 0) →
      r.1.isUnw = i.isUnw → r.1.Good → r.2.Nodup → (∀ a, a ∈ r.2 ↔ ∃ w, 0 < w ∧ (a.not, w) ∈ r.1.wts) → Q r s) :
    wp env (ollPrepare i rest) Q E s := by
  cases i with
  | weighted m =>
    obtain ⟨ws, h1, h2, h3⟩ := withWeights_spec m rest hr.keys
    simp only [ollPrepare]
    rw [wp_bind, h1, wp_unwrap_some, wp_pure]
    have hpz := popZeros_eq _ (sortDesc_sorted ws)
    refine hQ _ (.inl rfl) rfl trivial ?_ ?_
    · simp only
      rw [hpz]
      exact (sortDesc_nodup ws (by rw [h2]; exact hr.nodup)).sublist (List.filter_sublist.map _)
    · intro a
      simp only [Inactives.wts]
      rw [hpz]
      simp only [List.mem_map, List.mem_filter, mem_sortDesc, decide_eq_true_eq]
      constructor
      · rintro ⟨⟨b, w⟩, ⟨hb, hw⟩, rfl⟩
        exact ⟨w, hw, h3 b w hb⟩
      · rintro ⟨w, hw, hm⟩
        have hrest := hr.all _ _ hm hw
        rw [lit_not_not, ← h2] at hrest
        obtain ⟨⟨b, v⟩, hb, rfl⟩ := List.mem_map.1 hrest
        have := nodup_mem_unique hk (h3 b v hb) hm rfl
        simp only [Prod.mk.injEq] at this
        exact ⟨(b, v), ⟨hb, by rw [this.2]; exact hw⟩, rfl⟩
  | unweighted lits active =>
    simp only [ollPrepare]
    rw [wp_pure]
    have hw := Inactives.cleanup_wts (.unweighted lits active)
    have hiter : (Inactives.cleanup (.unweighted lits active)).iter =
        (Inactives.cleanup (.unweighted lits active)).wts := by simp [Inactives.cleanup, Inactives.iter, Inactives.wts]
    refine hQ _ (.inr hw) rfl ?_ ?_ ?_
    · intro a ha; simp at ha
    · simp only [Inactives.assumps]
      rw [hiter, hw]
      have : (List.filter (fun p => decide (p.2 > 0)) (Inactives.unweighted lits active).wts).map (fun p => p.1.not) =
          ((List.filter (fun p => decide (p.2 > 0)) (Inactives.unweighted lits active).wts).map Prod.fst).map Lit.not := by
        simp
      rw [this]
      exact nodup_map_not (hk.sublist (List.filter_sublist.map _))
    · intro a
      simp only [Inactives.assumps]
      rw [hiter, hw]
      simp only [List.mem_map, List.mem_filter, decide_eq_true_eq]
      constructor
      · rintro ⟨⟨b, w⟩, ⟨hb, hw'⟩, rfl⟩
        simp only [lit_not_not]
        exact ⟨w, hw', hb, hw'⟩
      · rintro ⟨w, hw', hm, -⟩
        exact ⟨(a.not, w), ⟨hm, hw'⟩, by simp only [lit_not_not]⟩
  | constant => exact hg.elim

/-! ## The weight of a core -/

theorem coreWeight_spec {i : Inactives} (hg : i.Good) (hk : (i.wts.map Prod.fst).Nodup) (core : List Lit)
    (h : ∀ l ∈ core, ∃ w, 0 < w ∧ (l, w) ∈ i.wts) :
    ∃ cw, coreWeight i core = some cw ∧ 0 < cw ∧ (i.isUnw = true → cw = 1) ∧ ∀ l ∈ core, ∃ w, cw ≤ w ∧ (l, w) ∈ i.wts := by
  cases i with
  | weighted m =>
    have key : ∀ (core : List Lit) (b : Nat), 0 < b → (∀ l ∈ core, ∃ w, 0 < w ∧ (l, w) ∈ m) →
        ∃ cw, core.foldl (fun w l => do
          let w ← w
          let lw ← mapGet l m
          some (min w lw)) (some b) = some cw ∧ 0 < cw ∧ cw ≤ b ∧ ∀ l ∈ core, ∃ w, cw ≤ w ∧ (l, w) ∈ m := by
      intro core
      induction core with
      | nil => intro b hb _; exact ⟨b, rfl, hb, Nat.le_refl _, by simp⟩
      | cons x core ih =>
        intro b hb hx
        obtain ⟨w, hw, hm⟩ := hx x (by simp)
        have hgx : mapGet x m = some w := mapGet_of_mem hk hm
        obtain ⟨cw, h1, h2, h3, h4⟩ := ih (min b w) (by omega) fun l hl => hx l (by simp [hl])
        refine ⟨cw, ?_, h2, by omega, ?_⟩
        · rw [List.foldl_cons]
          simp only [hgx]
          exact h1
        · intro l hl
          rcases List.mem_cons.1 hl with rfl | hl
          · exact ⟨w, by omega, hm⟩
          · exact h4 l hl
    obtain ⟨cw, h1, h2, -, h4⟩ := key core usizeMax (by decide) h
    exact ⟨cw, h1, h2, by simp [Inactives.isUnw], h4⟩
  | unweighted lits active =>
    refine ⟨1, rfl, by omega, fun _ => rfl, fun l hl => ?_⟩
    obtain ⟨w, hw, hm⟩ := h l hl
    exact ⟨w, hw, hm⟩
  | constant => exact hg.elim

/-! ## Relaxing a core -/

/-- Weights in the unweighted case. -/
structure OnesOK (i : Inactives) (R : List (Lit × ReformData)) (U : List (List NodeCon × Nat)) : Prop where
  good : i.Good
  refs : i.isUnw = true → ∀ l rd, mapGet l R = some rd → rd.totWeight = 1
  cores : i.isUnw = true → ∀ u ∈ U, u.2 = 1

theorem RestOK.subKey {rest : List Lit} {I : List (Lit × Nat)} (h : RestOK rest I) (l : Lit) (w : Nat) :
    RestOK rest (subKey l w I) := by
  refine ⟨h.nodup, by rw [subKey_keys]; exact h.keys, fun x y hx hy => ?_⟩
  rcases mem_subKey hx with ⟨-, hx⟩ | ⟨rfl, z, hz, rfl⟩
  · exact h.all x y hx hy
  · exact h.all x z hz (by omega)

theorem RestOK.append {rest : List Lit} {I : List (Lit × Nat)} (h : RestOK rest I) {l : Lit} (w : Nat)
    (hl : l ∉ I.map Prod.fst) : RestOK (rest ++ [l.not]) (I ++ [(l, w)]) := by
  refine ⟨?_, ?_, ?_⟩
  · refine List.nodup_append.2 ⟨h.nodup, by simp, ?_⟩
    intro a ha b hb he
    simp only [List.mem_singleton] at hb
    subst hb he
    have := h.keys _ ha
    rw [lit_not_not] at this
    exact hl this
  · intro a ha
    rw [List.map_append]
    rcases List.mem_append.1 ha with ha | ha
    · exact List.mem_append.2 (.inl (h.keys a ha))
    · simp only [List.mem_singleton] at ha
      subst ha
      rw [lit_not_not]
      simp
  · intro x y hx hy
    rcases List.mem_append.1 hx with hx | hx
    · exact List.mem_append.2 (.inl (h.all x y hx hy))
    · simp only [List.mem_singleton, Prod.mk.injEq] at hx
      obtain ⟨rfl, rfl⟩ := hx
      simp

/-- What holds while a core is relaxed. -/
structure RelaxInv (pb : Pb) (o : Objective) (U : List (List NodeCon × Nat)) (off cw : Nat) (st : RelaxState D) :
    Prop where
  ref : RefOK pb o st.db st.inactives.wts st.refs U off cw st.cons
  ones : OnesOK st.inactives st.refs U
  one : st.inactives.isUnw = true → cw = 1
  rest : RestOK st.rest st.inactives.wts

theorem mapInsert_fresh {l : Lit} {rd : ReformData} {R : List (Lit × ReformData)} (h : l ∉ R.map Prod.fst) :
    mapInsert l rd R = R ++ [(l, rd)] := mapInsert_new _ _ _ h

variable {U : List (List NodeCon × Nat)} {off cw : Nat}

theorem wp_relaxLit (wf : pb.WF) (hob : ∀ l ∈ objLits o, l.var < pb.n0) (hcw : 0 < cw) {st : RelaxState D} {l : Lit}
    {w : Nat} (hi : CG pb st.db s) (hio : IoInv env n s.io) (h : RelaxInv pb o U off cw st)
    (hl : (l, w) ∈ st.inactives.wts) (hw : cw ≤ w) :
    wp env (relaxLit cw st l) (fun r s' => Keeps pb env n s st.db s' r.db ∧ s'.k.conflLimited = s.k.conflLimited ∧
      RelaxInv pb o U off cw r ∧ r.inactives.isUnw = st.inactives.isUnw ∧
      (∀ x y, (x, y) ∈ st.inactives.wts → x ≠ l → (x, y) ∈ r.inactives.wts ∧
        ∀ t, litV r.db r.refs t x = litV st.db st.refs t x) ∧
      ∃ c, r.cons = st.cons ++ [c] ∧ ∀ t, conVal r.db t c = litV st.db st.refs t l) E s := by
  unfold relaxLit
  rw [wp_bind]
  refine Inactives.wp_relax h.ones.good h.ref.keys hl hw h.one ?_
  rintro ⟨i, w'⟩ hi1 hi2 hi3 hi4
  simp only at hi1 hi2 hi3 hi4 ⊢
  cases hg : mapGet l st.refs with
  | some rd =>
    simp only
    obtain ⟨r1, r2, r3, r4, -⟩ := h.ref.refs l rd hg
    split
    · next hpos =>
      rw [wp_pure]
      refine ⟨⟨hi, TStep.refl _ _, hio⟩, rfl, ⟨?_, ⟨hi4, ?_, ?_⟩, ?_, ?_⟩, hi3, ?_, _, rfl, ?_⟩
      · simp only [hi1]
        exact h.ref.relaxRef hl (by omega) hg
      · simp only [hi3]; exact h.ones.refs
      · simp only [hi3]; exact h.ones.cores
      · simp only [hi3]; exact h.one
      · simp only [hi1]; exact h.rest.subKey l cw
      · intro x y hx hne
        exact ⟨by simp only [hi1]; exact mem_subKey_of_ne hx hne, fun t => rfl⟩
      · intro t
        rw [conVal_single, litV_ref hg]
    · next hpos =>
      have hwe : w = cw := by omega
      subst hwe
      split
      · next hlast =>
        rw [wp_pure]
        refine ⟨⟨hi, TStep.refl _ _, hio⟩, rfl, ⟨?_, ⟨hi4, ?_, ?_⟩, ?_, ?_⟩, hi3, ?_, _, rfl, ?_⟩
        · simp only [hi1]
          exact h.ref.relaxLast hl hg hlast
        · simp only [hi3]
          intro hu x rd' hx
          rw [mapGet_mapRemove] at hx
          split at hx
          · simp at hx
          · exact h.ones.refs hu x rd' hx
        · simp only [hi3]; exact h.ones.cores
        · simp only [hi3]; exact h.one
        · simp only [hi1]; exact h.rest.subKey l w
        · intro x y hx hne
          simp only [hi1]
          exact ⟨mem_subKey_of_ne hx hne, fun t => litV_remove hne t⟩
        · intro t
          rw [conVal_single, litV_ref hg]
      · next hnext =>
        rw [wp_bind]
        refine wp_mono (wp_buildOutput wf hi hio (LawfulTotDb.inner_node _ _ r1) (i := rd.oidx + 1) (by omega)) ?_
          (fun _ _ h => h)
        rintro ⟨new, d1⟩ s1 ⟨k1, hl1, ho1⟩
        simp only at k1 ho1 ⊢
        obtain ⟨hr', hfresh⟩ := h.ref.relaxNext hl hg (by omega) hob k1.step.step k1.cg.base ho1
        rw [wp_bind]
        refine Inactives.wp_insert hi4 (by rw [hi1, subKey_keys]; exact hfresh)
          (fun hu => h.ones.refs (by rw [← hi3]; exact hu) l rd hg) ?_
        intro i2 hj1 hj2 hj3
        rw [wp_pure]
        have hfr : new ∉ (mapRemove l st.refs).map Prod.fst := fun hm =>
          hfresh (h.ref.rkey_mem (((mapRemove_sublist l st.refs).map Prod.fst).mem hm))
        refine ⟨k1, hl1, ⟨?_, ⟨hj3, ?_, ?_⟩, ?_, ?_⟩, by simp only [hj2, hi3], ?_, _, rfl, ?_⟩
        · simp only [hj1, hi1, mapInsert_fresh hfr]
          exact hr'
        · simp only [hj2, hi3, mapInsert_fresh hfr]
          intro hu x rd' hx
          rw [mapGet_append, mapGet_mapRemove] at hx
          rcases Option.or_eq_some_iff.1 hx with hx | ⟨-, hx⟩
          · split at hx
            · simp at hx
            · exact h.ones.refs hu x rd' hx
          · simp only [mapGet] at hx
            split at hx
            · simp only [Option.some.injEq] at hx
              rw [← hx]
              exact h.ones.refs hu l rd hg
            · simp at hx
        · simp only [hj2, hi3]; exact h.ones.cores
        · simp only [hj2, hi3]; exact h.one
        · simp only [hj1, hi1]
          exact (h.rest.subKey l w).append _ (by rw [subKey_keys]; exact hfresh)
        · intro x y hx hne
          simp only [hj1, hi1, mapInsert_fresh hfr]
          refine ⟨List.mem_append.2 (.inl (mem_subKey_of_ne hx hne)), fun t => ?_⟩
          have hxn : x ≠ new := by rintro rfl; exact hfresh (List.mem_map.2 ⟨_, hx, rfl⟩)
          rw [litV_append_new hxn, litV_remove hne,
            h.ref.litV_keep k1.step.step.toDKeep]
        · intro t
          simp only
          rw [conVal_keep k1.step.step.toDKeep (LawfulTotDb.inner_node _ _ r1), conVal_single, litV_ref hg]
  | none =>
    simp only
    have hlo := h.ref.orig l w hl (by omega) hg
    obtain ⟨k1, k2⟩ := hi.leaf (hob l hlo)
    obtain ⟨hr', hv⟩ := h.ref.relaxLeaf hl hw hg rfl
    rw [wp_pure]
    refine ⟨⟨k1, k2, hio⟩, rfl, ⟨?_, ⟨hi4, ?_, ?_⟩, ?_, ?_⟩, hi3, ?_, _, rfl, hv⟩
    · simp only [hi1]; exact hr'
    · simp only [hi3]; exact h.ones.refs
    · simp only [hi3]; exact h.ones.cores
    · simp only [hi3]; exact h.one
    · simp only [hi1]; exact h.rest.subKey l cw
    · intro x y hx hne
      simp only [hi1]
      exact ⟨mem_subKey_of_ne hx hne, fun t => h.ref.litV_keep k2.step.toDKeep t x⟩

theorem wp_relaxLoop (wf : pb.WF) (hob : ∀ l ∈ objLits o, l.var < pb.n0) (hcw : 0 < cw) (ls : List Lit)
    {st : RelaxState D} (hi : CG pb st.db s) (hio : IoInv env n s.io) (h : RelaxInv pb o U off cw st)
    (hnd : ls.Nodup) (hls : ∀ l ∈ ls, ∃ w, cw ≤ w ∧ (l, w) ∈ st.inactives.wts) :
    wp env (relaxLoop cw ls st) (fun r s' => Keeps pb env n s st.db s' r.db ∧ s'.k.conflLimited = s.k.conflLimited ∧
      RelaxInv pb o U off cw r ∧ r.inactives.isUnw = st.inactives.isUnw ∧ r.cons.length = st.cons.length + ls.length ∧
      ∀ t, (r.cons.map (conVal r.db t)).sum = (st.cons.map (conVal st.db t)).sum + (ls.map (litV st.db st.refs t)).sum)
      E s := by
  induction ls generalizing st s with
  | nil =>
    unfold relaxLoop
    rw [wp_pure]
    exact ⟨⟨hi, TStep.refl _ _, hio⟩, rfl, h, rfl, rfl, fun t => by simp⟩
  | cons l ls ih =>
    unfold relaxLoop
    rw [wp_bind]
    obtain ⟨w, hw, hl⟩ := hls l (by simp)
    rw [List.nodup_cons] at hnd
    refine wp_mono (wp_relaxLit wf hob hcw hi hio h hl hw) ?_ (fun _ _ h => h)
    rintro st1 s1 ⟨k1, hl1, h1, hu1, hx1, c, hc1, hc2⟩
    refine wp_mono (ih k1.cg k1.io h1 hnd.2 ?_) ?_ (fun _ _ h => h)
    · intro x hx
      obtain ⟨y, hy, hxy⟩ := hls x (by simp [hx])
      exact ⟨y, hy, (hx1 x y hxy (fun he => hnd.1 (he ▸ hx))).1⟩
    · rintro st2 s2 ⟨k2, hl2, h2, hu2, hlen, hsum⟩
      refine ⟨k1.trans k2, hl2.trans hl1, h2, hu2.trans hu1, ?_, fun t => ?_⟩
      · rw [hlen, hc1]; simp; omega
      · rw [hsum, hc1, List.map_append, List.sum_append, List.map_singleton, List.sum_singleton, hc2,
          List.map_cons, List.sum_cons]
        have e1 : (st.cons.map (conVal st1.db t)).sum = (st.cons.map (conVal st.db t)).sum :=
          sum_conVal_keep k1.step.step.toDKeep h.ref.pendOK t
        have e2 : (ls.map (litV st1.db st1.refs t)).sum = (ls.map (litV st.db st.refs t)).sum := by
          congr 1
          refine List.map_congr_left fun x hx => ?_
          obtain ⟨y, hy, hxy⟩ := hls x (by simp [hx])
          exact (hx1 x y hxy (fun he => hnd.1 (he ▸ hx))).2 t
        rw [e1, e2]
        omega

end Scuttle
