import Verif.Proof.RefTot

/-!
# A reference encoding that reserves variables

As `RefEncS`, but `reserve` sets variables aside for all bounds. It does not model code of `/repo`.
-/

namespace Scuttle

open Spec

/-- Reference encoding with, for each bound, the first of `k + 1` variables that have been reserved. -/
structure ResEnc (k : Nat) where
  enc : RefTot.RefTree k
  pool : List (Nat × Nat)

namespace ResEnc

variable {k k' : Nat}

/-- Encodes the given bounds. -/
def encodeList (e : ResEnc k) : List Nat → Nat → ResEnc k × List Clause × Nat
  | [], n => (e, [], n)
  | b :: bs, n =>
    match RefEncS.find b e.pool with
    | some v =>
      let r := encodeList ⟨⟨e.enc.lits, e.enc.outs ++ [(b, v)]⟩, e.pool⟩ bs n
      (r.1, e.enc.outClauses b v ++ r.2.1, r.2.2)
    | none =>
      let r := encodeList ⟨⟨e.enc.lits, e.enc.outs ++ [(b, n)]⟩, e.pool⟩ bs (n + k + 1)
      (r.1, e.enc.outClauses b n ++ r.2.1, r.2.2)

instance : UbEnc (ResEnc k) where
  ofLits l := ⟨UbEnc.ofLits l, []⟩
  reserve e n := (⟨e.enc, e.pool ++ (List.range e.enc.maxV).map fun b => (b, n + b * (k + 1))⟩, n + e.enc.maxV * (k + 1))
  encode e lo hi n := e.encodeList (List.range' lo (min hi e.enc.maxV - lo)) n
  enforce e b := UbEnc.enforce e.enc b
  nextHigher _ b := b + 1

/-- All variables set aside or used for outputs. -/
def full (e : ResEnc k) : RefTot.RefTree k := ⟨e.enc.lits, e.enc.outs ++ e.pool⟩

theorem encodeList_lits (bs : List Nat) (e : ResEnc k) (n : Nat) : (e.encodeList bs n).1.enc.lits = e.enc.lits := by
  induction bs generalizing e n with
  | nil => rfl
  | cons b bs ih => simp only [encodeList]; split <;> rw [ih]

theorem encodeList_pool (bs : List Nat) (e : ResEnc k) (n : Nat) : (e.encodeList bs n).1.pool = e.pool := by
  induction bs generalizing e n with
  | nil => rfl
  | cons b bs ih => simp only [encodeList]; split <;> rw [ih]

theorem encodeList_next (bs : List Nat) (e : ResEnc k) (n : Nat) : n ≤ (e.encodeList bs n).2.2 := by
  induction bs generalizing e n with
  | nil => exact Nat.le_refl _
  | cons b bs ih =>
    simp only [encodeList]
    split
    · exact ih _ _
    · exact Nat.le_trans (by omega) (ih _ _)

/-- Outputs over variables that have been set aside. -/
theorem below_some {e : ResEnc k} {n b v : Nat} (hv : (b, v) ∈ e.pool) (h : e.full.BelowE n) :
    (full (⟨⟨e.enc.lits, e.enc.outs ++ [(b, v)]⟩, e.pool⟩ : ResEnc k)).BelowE n := by
  refine ⟨h.1, fun p hp => h.2 p ?_⟩
  simp only [full, List.mem_append, List.mem_singleton] at hp ⊢
  rcases hp with (hp | rfl) | hp
  · exact .inl hp
  · exact .inr hv
  · exact .inr hp

theorem below_none {e : ResEnc k} {n : Nat} (b : Nat) (h : e.full.BelowE n) :
    (full (⟨⟨e.enc.lits, e.enc.outs ++ [(b, n)]⟩, e.pool⟩ : ResEnc k)).BelowE (n + k + 1) := by
  refine ⟨RefSum.below_mono _ _ _ h.1 (by omega), fun p hp => ?_⟩
  simp only [full, List.mem_append, List.mem_singleton] at hp
  have h2 : ∀ q ∈ e.enc.outs ++ e.pool, q.2 + k < n := h.2
  rcases hp with (hp | rfl) | hp
  · have := h2 p (by simp [hp]); omega
  · simp only; omega
  · have := h2 p (by simp [hp]); omega

theorem encodeList_below (bs : List Nat) (e : ResEnc k) (n : Nat) (h : e.full.BelowE n) :
    (e.encodeList bs n).1.full.BelowE (e.encodeList bs n).2.2 := by
  induction bs generalizing e n with
  | nil => exact h
  | cons b bs ih =>
    simp only [encodeList]
    split
    · next v hv => exact ih _ _ (below_some (RefEncS.find_some hv) h)
    · exact ih _ _ (below_none b h)

theorem outClauses_vars {e : RefTot.RefTree k} {b v n : Nat} (hl : RefSum.BelowS e.lits n) (hv : v + k < n) :
    VarsBelow n (e.outClauses b v) := by
  intro c hc l hl'
  simp only [RefEncS.outClauses, List.mem_flatMap, List.mem_range, List.mem_map] at hc
  obtain ⟨j, hj, c', hc', rfl⟩ := hc
  rcases List.mem_cons.1 hl' with rfl | hl'
  · simp only [Lit.pos_var]; omega
  · exact RefSum.atMost_vars e.lits _ b hl c' hc' l hl'

theorem encodeList_vars (bs : List Nat) (e : ResEnc k) (n : Nat) (h : e.full.BelowE n) :
    VarsBelow (e.encodeList bs n).2.2 (e.encodeList bs n).2.1 := by
  induction bs generalizing e n with
  | nil => intro c hc; simp [encodeList] at hc
  | cons b bs ih =>
    simp only [encodeList]
    split
    · next v hv =>
      intro c hc l hl
      have hp := RefEncS.find_some hv
      rcases List.mem_append.1 hc with hc | hc
      · have h2 := h.2 (b, v) (by simp [full, hp])
        exact Nat.lt_of_lt_of_le (outClauses_vars h.1 h2 c hc l hl) (encodeList_next _ _ _)
      · exact ih _ _ (below_some hp h) c hc l hl
    · intro c hc l hl
      rcases List.mem_append.1 hc with hc | hc
      · have := outClauses_vars (e := e.enc) (b := b) (v := n) (n := n + k + 1) (RefSum.below_mono _ _ _ h.1 (by omega)) (by omega) c hc l hl
        exact Nat.lt_of_lt_of_le this (encodeList_next _ _ _)
      · exact ih _ _ (below_none b h) c hc l hl

theorem sound_step {e : ResEnc k} {b v : Nat} {m : Asg} (h : e.enc.SoundE m)
    (hc : cnfEval m (e.enc.outClauses b v) = true) :
    RefEncS.SoundE (⟨e.enc.lits, e.enc.outs ++ [(b, v)]⟩ : RefTot.RefTree k) m := by
  intro p hp j hj hm
  rcases List.mem_append.1 hp with hp | hp
  · exact h p hp j hj hm
  · simp only [List.mem_singleton] at hp
    subst hp
    rcases RefEncS.outClauses_eval.1 hc j hj with h1 | h1
    · simp [h1] at hm
    · exact h1

theorem encodeList_sound (bs : List Nat) (e : ResEnc k) (n : Nat) (m : Asg) (h : e.enc.SoundE m)
    (hc : cnfEval m (e.encodeList bs n).2.1 = true) : (e.encodeList bs n).1.enc.SoundE m := by
  induction bs generalizing e n with
  | nil => exact h
  | cons b bs ih =>
    simp only [encodeList] at hc ⊢
    split at hc
    · rw [cnfEval_append] at hc
      exact ih _ _ (sound_step h hc.1) hc.2
    · rw [cnfEval_append] at hc
      exact ih _ _ (sound_step h hc.1) hc.2

theorem encodeList_exact (bs : List Nat) (e : ResEnc k) (n : Nat) (m : Asg) (hb : e.full.BelowE n) (h : e.full.ExactE m) :
    ∃ m', AgreeBelow n m m' ∧ cnfEval m' (e.encodeList bs n).2.1 = true ∧ (e.encodeList bs n).1.full.ExactE m' := by
  induction bs generalizing e n m with
  | nil => exact ⟨m, fun _ _ => rfl, by simp [encodeList, cnfEval], h⟩
  | cons b bs ih =>
    simp only [encodeList]
    split
    · next v hv =>
      have hp := RefEncS.find_some hv
      have hex : (full (⟨⟨e.enc.lits, e.enc.outs ++ [(b, v)]⟩, e.pool⟩ : ResEnc k)).ExactE m := by
        intro p hp' j hj
        refine h p ?_ j hj
        simp only [full, List.mem_append, List.mem_singleton] at hp' ⊢
        rcases hp' with (hp' | rfl) | hp'
        · exact .inl hp'
        · exact .inr hp
        · exact .inr hp'
      obtain ⟨m2, h1, h2, h3⟩ := ih _ n m (below_some hp hb) hex
      refine ⟨m2, h1, ?_, h3⟩
      rw [cnfEval_append]
      refine ⟨RefEncS.outClauses_eval.2 fun j hj => ?_, h2⟩
      have h4 := h (b, v) (by simp [full, hp]) j hj
      have h5 : v + k < n := hb.2 (b, v) (by simp [full, hp])
      have h6 : RefSum.val e.enc.lits m2 = RefSum.val e.enc.lits m := (RefSum.val_local _ _ _ _ hb.1 h1).symm
      have h7 : v + j < n := by omega
      rw [h6, ← h1 (v + j) h7, h4]
      exact (Nat.lt_or_ge _ _).imp decide_eq_true id
    · let m1 : Asg := fun v => if n ≤ v then decide (b < RefSum.val e.enc.lits m) else m v
      have hag : AgreeBelow n m m1 := fun v hv => by simp only [m1]; rw [if_neg (by omega)]
      have hlin : RefSum.val e.enc.lits m1 = RefSum.val e.enc.lits m := (RefSum.val_local _ _ _ _ hb.1 hag).symm
      have hex : (full (⟨⟨e.enc.lits, e.enc.outs ++ [(b, n)]⟩, e.pool⟩ : ResEnc k)).ExactE m1 := by
        intro p hp j hj
        simp only [full, hlin] at hp ⊢
        simp only [List.mem_append, List.mem_singleton] at hp
        have hold : p ∈ e.enc.outs ++ e.pool → m1 (p.2 + j) = decide (p.1 < RefSum.val e.enc.lits m) := by
          intro hp
          have : p.2 + k < n := hb.2 p hp
          rw [← hag _ (by omega)]
          exact h p hp j hj
        rcases hp with (hp | rfl) | hp
        · exact hold (by simp [hp])
        · simp only [m1]
          rw [if_pos (by omega)]
        · exact hold (by simp [hp])
      obtain ⟨m2, h1, h2, h3⟩ := ih _ (n + k + 1) m1 (below_none b hb) hex
      refine ⟨m2, fun v hv => by rw [hag v hv]; exact h1 v (by omega), ?_, h3⟩
      rw [cnfEval_append]
      refine ⟨RefEncS.outClauses_eval.2 fun j hj => ?_, h2⟩
      have h4 : RefSum.val e.enc.lits m2 = RefSum.val e.enc.lits m1 :=
        (RefSum.val_local _ _ _ _ (RefSum.below_mono _ _ (n + k + 1) hb.1 (by omega)) h1).symm
      rw [h4, hlin, ← h1 (n + j) (by omega)]
      simp only [m1]
      rw [if_pos (by omega)]
      simp only [decide_eq_true_eq]
      omega

theorem encodeList_outs (bs : List Nat) (e : ResEnc k) (n : Nat) :
    (∀ p ∈ e.enc.outs, p ∈ (e.encodeList bs n).1.enc.outs) ∧ ∀ b ∈ bs, ∃ v, (b, v) ∈ (e.encodeList bs n).1.enc.outs := by
  induction bs generalizing e n with
  | nil => exact ⟨fun p hp => hp, by simp⟩
  | cons b bs ih =>
    simp only [encodeList]
    split
    · next v hv =>
      obtain ⟨h1, h2⟩ := ih ⟨⟨e.enc.lits, e.enc.outs ++ [(b, v)]⟩, e.pool⟩ n
      refine ⟨fun p hp => h1 p (by simp [hp]), fun b' hb' => ?_⟩
      rcases List.mem_cons.1 hb' with rfl | hb'
      · exact ⟨v, h1 _ (by simp)⟩
      · exact h2 b' hb'
    · obtain ⟨h1, h2⟩ := ih ⟨⟨e.enc.lits, e.enc.outs ++ [(b, n)]⟩, e.pool⟩ (n + k + 1)
      refine ⟨fun p hp => h1 p (by simp [hp]), fun b' hb' => ?_⟩
      rcases List.mem_cons.1 hb' with rfl | hb'
      · exact ⟨n, h1 _ (by simp)⟩
      · exact h2 b' hb'

theorem maxV_encodeList (bs : List Nat) (e : ResEnc k) (n : Nat) : (e.encodeList bs n).1.enc.maxV = e.enc.maxV := by
  unfold RefEncS.maxV; rw [encodeList_lits]

theorem below_enc {e : ResEnc k} {n : Nat} (h : e.full.BelowE n) : e.enc.BelowE n :=
  ⟨h.1, fun p hp => h.2 p (by simp [full, hp])⟩

theorem exact_enc {e : ResEnc k} {m : Asg} (h : e.full.ExactE m) : e.enc.ExactE m :=
  fun p hp j hj => h p (by simp [full, hp]) j hj

instance : LawfulUbEnc (ResEnc k) where
  val e m := RefSum.val e.enc.lits m
  maxVal e := e.enc.maxV
  Sound e m := e.enc.SoundE m
  Exact e m := e.full.ExactE m
  Ready e b := e.enc.ReadyE b
  Below e n := e.full.BelowE n
  val_ofLits := RefSum.val_ofLits
  maxVal_ofLits := RefSum.maxV_ofLits
  sound_ofLits _ _ := by intro p hp; simp [UbEnc.ofLits] at hp
  exact_ofLits _ _ := by intro p hp; simp [UbEnc.ofLits, full] at hp
  below_ofLits l n h := ⟨RefSum.below_ofLits l n h, by intro p hp; simp [UbEnc.ofLits, full] at hp⟩
  below_mono e n n' h hn := ⟨RefSum.below_mono _ _ _ h.1 hn, fun p hp => Nat.lt_of_lt_of_le (h.2 p hp) hn⟩
  exact_local e n m m' hb ha h := LawfulUbEnc.exact_local (E := RefTot.RefTree k) e.full n m m' hb ha h
  val_local e n m m' hb ha := RefSum.val_local _ _ _ _ hb.1 ha
  reserve_next _ _ _ := Nat.le_add_right _ _
  reserve_below e n h := by
    refine ⟨RefSum.below_mono _ _ _ h.1 (Nat.le_add_right _ _), fun p hp => ?_⟩
    have h2 : ∀ q ∈ e.enc.outs ++ e.pool, q.2 + k < n := h.2
    simp only [full, UbEnc.reserve, List.mem_append, List.mem_map, List.mem_range] at hp ⊢
    rcases hp with hp | hp | ⟨b, hb, rfl⟩
    · have := h2 p (by simp [hp]); omega
    · have := h2 p (by simp [hp]); omega
    · have : (b + 1) * (k + 1) ≤ e.enc.maxV * (k + 1) := Nat.mul_le_mul_right _ hb
      have h3 : (b + 1) * (k + 1) = b * (k + 1) + (k + 1) := by ring
      simp only
      omega
  reserve_val _ _ _ := rfl
  reserve_maxVal _ _ := rfl
  reserve_sound _ _ _ h := h
  reserve_exact e n m hb h := by
    let m1 : Asg := fun v => if n ≤ v then decide ((v - n) / (k + 1) < RefSum.val e.enc.lits m) else m v
    have hag : AgreeBelow n m m1 := fun v hv => by simp only [m1]; rw [if_neg (by omega)]
    have hlin : RefSum.val e.enc.lits m1 = RefSum.val e.enc.lits m := (RefSum.val_local _ _ _ _ hb.1 hag).symm
    refine ⟨m1, hag, fun p hp j hj => ?_⟩
    simp only [full, UbEnc.reserve, hlin] at hp ⊢
    have hold : p ∈ e.enc.outs ++ e.pool → m1 (p.2 + j) = decide (p.1 < RefSum.val e.enc.lits m) := by
      intro hp
      have : p.2 + k < n := hb.2 p hp
      rw [← hag _ (by omega)]
      exact h p hp j hj
    simp only [List.mem_append, List.mem_map, List.mem_range] at hp
    rcases hp with hp | hp | ⟨b, -, rfl⟩
    · exact hold (by simp [hp])
    · exact hold (by simp [hp])
    · simp only [m1]
      rw [if_pos (by omega)]
      have h1 : n + b * (k + 1) + j - n = j + b * (k + 1) := by omega
      rw [h1, Nat.add_mul_div_right _ _ (by omega), Nat.div_eq_of_lt (by omega), Nat.zero_add]
  encode_next e lo hi n _ := encodeList_next _ e n
  encode_below e lo hi n h := encodeList_below _ e n h
  encode_vars e lo hi n h := encodeList_vars _ e n h
  encode_val e lo hi n m := by
    show RefSum.val (e.encodeList _ n).1.enc.lits m = _
    rw [encodeList_lits]
  encode_maxVal e lo hi n := maxV_encodeList _ e n
  encode_sound e lo hi n m _ h hc := encodeList_sound _ e n m h hc
  encode_exact e lo hi n m hb h := encodeList_exact _ e n m hb h
  encode_exact_mono e lo hi n m h := by
    intro p hp j hj
    have h2 : (UbEnc.encode e lo hi n).1.full.lits = e.enc.lits := encodeList_lits _ e n
    have h1 := h p ?_ j hj
    · rw [h2] at h1
      exact h1
    · have h3 := (encodeList_outs (List.range' lo (min hi e.enc.maxV - lo)) e n).1
      have h4 := encodeList_pool (List.range' lo (min hi e.enc.maxV - lo)) e n
      simp only [full, UbEnc.encode, List.mem_append] at hp ⊢
      rw [h4]
      exact hp.imp (h3 p) id
  encode_ready e lo hi n b h1 h2 := by
    by_cases hm : e.enc.maxV ≤ b
    · exact .inl (by rw [show (UbEnc.encode e lo hi n).1.enc.maxV = e.enc.maxV from maxV_encodeList _ e n]; exact hm)
    · refine .inr ((encodeList_outs _ e n).2 b ?_)
      simp only [List.mem_range'_1]
      omega
  encode_ready_mono e lo hi n b h := by
    rcases h with h | ⟨v, h⟩
    · exact .inl (by rw [show (UbEnc.encode e lo hi n).1.enc.maxV = e.enc.maxV from maxV_encodeList _ e n]; exact h)
    · exact .inr ⟨v, (encodeList_outs _ e n).1 _ h⟩
  enforce_ok e b n hr hb := LawfulUbEnc.enforce_ok (E := RefTot.RefTree k) e.enc b n hr (below_enc hb)
  enforce_sound e b ls m hr he hs hc := LawfulUbEnc.enforce_sound (E := RefTot.RefTree k) e.enc b ls m hr he hs hc
  enforce_exact e b ls m hr he hs hc := LawfulUbEnc.enforce_exact (E := RefTot.RefTree k) e.enc b ls m hr he (exact_enc hs) hc
  enforce_max e b hr h := LawfulUbEnc.enforce_max (E := RefTot.RefTree k) e.enc b hr h
  nextHigher_lt e b _ := Nat.lt_succ_self b
  nextHigher_le e b m h := h

instance : MergeEnc (ResEnc k) (ResEnc k') RefTot where
  mergeThorough := MergeEnc.mergeThorough (RefTot.RefTree k) (RefTot.RefTree k')
  isUnit := MergeEnc.isUnit (RefTot.RefTree k) (RefTot.RefTree k')
  totFromRaw id off d := ⟨MergeEnc.totFromRaw (RefTot.RefTree k) id off d, []⟩
  gteFromRaw c d w := ⟨MergeEnc.gteFromRaw (RefTot.RefTree k') c d w, []⟩

instance : LawfulMergeEnc (ResEnc k) (ResEnc k') RefTot where
  MaxLeaf := LawfulMergeEnc.MaxLeaf (RefTot.RefTree k) (RefTot.RefTree k')
  merge_keep := LawfulMergeEnc.merge_keep (P := RefTot.RefTree k) (C := RefTot.RefTree k')
  merge_sound := LawfulMergeEnc.merge_sound (P := RefTot.RefTree k) (C := RefTot.RefTree k')
  merge_exact := LawfulMergeEnc.merge_exact (P := RefTot.RefTree k) (C := RefTot.RefTree k')
  merge_below := LawfulMergeEnc.merge_below (P := RefTot.RefTree k) (C := RefTot.RefTree k')
  merge_root := LawfulMergeEnc.merge_root (P := RefTot.RefTree k) (C := RefTot.RefTree k')
  tot_val := LawfulMergeEnc.tot_val (P := RefTot.RefTree k) (C := RefTot.RefTree k')
  tot_maxVal := LawfulMergeEnc.tot_maxVal (P := RefTot.RefTree k) (C := RefTot.RefTree k')
  tot_sound := LawfulMergeEnc.tot_sound (P := RefTot.RefTree k) (C := RefTot.RefTree k')
  tot_exact := LawfulMergeEnc.tot_exact (P := RefTot.RefTree k) (C := RefTot.RefTree k')
  tot_below := LawfulMergeEnc.tot_below (P := RefTot.RefTree k) (C := RefTot.RefTree k')
  gte_val := LawfulMergeEnc.gte_val (P := RefTot.RefTree k) (C := RefTot.RefTree k')
  gte_maxVal := LawfulMergeEnc.gte_maxVal (P := RefTot.RefTree k) (C := RefTot.RefTree k')
  gte_sound := LawfulMergeEnc.gte_sound (P := RefTot.RefTree k) (C := RefTot.RefTree k')
  gte_exact := LawfulMergeEnc.gte_exact (P := RefTot.RefTree k) (C := RefTot.RefTree k')
  gte_below := LawfulMergeEnc.gte_below (P := RefTot.RefTree k) (C := RefTot.RefTree k')

end ResEnc
end Scuttle
