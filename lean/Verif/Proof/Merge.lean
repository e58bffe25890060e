import Verif.Proof.OllLoop

/-!
# Rules for merging totalizers into an encoding of an objective
-/

set_option linter.unusedSectionVars false

namespace Scuttle

open Spec

variable {P C D : Type} [UbEnc P] [UbEnc C] [LawfulUbEnc P] [LawfulUbEnc C] [TotDb D] [LawfulTotDb D]
variable {env : Env} {s s' : Slv P C} {pb : Pb} {d d' d'' : D} {o : Objective} {E : Stop → Slv P C → Prop}

open TotSem (Node Inner cnt Sound Exact Below Inputs Base IsOut)

/-! ## Sums over the literals -/

/-- What a totalizer adds to the literal that is its output. -/
def extra (h : ReformData → Nat) (R : List (Lit × ReformData)) (l : Lit) : Nat :=
  match mapGet l R with
  | some rd => rd.totWeight * h rd
  | none => 0

theorem sum_ite_eq {ks : List Lit} (hn : ks.Nodup) {k : Lit} (hk : k ∈ ks) (x : Nat) :
    (ks.map fun l => if k = l then x else 0).sum = x := by
  induction ks with
  | nil => simp at hk
  | cons a ks ih =>
    simp only [List.nodup_cons] at hn
    simp only [List.map_cons, List.sum_cons]
    by_cases h : k = a
    · subst h
      have : (ks.map fun l => if k = l then x else 0).sum = 0 := by
        have e : (ks.map fun l => if k = l then x else 0) = ks.map fun _ => 0 :=
          List.map_congr_left fun l hl => if_neg (by rintro rfl; exact hn.1 hl)
        rw [e]
        simp
      rw [if_pos rfl, this]
      omega
    · rw [if_neg h, ih hn.2 ((List.mem_cons.1 hk).resolve_left h)]
      omega

theorem sum_map_add (ks : List Lit) (f g : Lit → Nat) :
    (ks.map fun l => f l + g l).sum = (ks.map f).sum + (ks.map g).sum := by
  induction ks with
  | nil => rfl
  | cons a ks ih => simp only [List.map_cons, List.sum_cons, ih]; omega

theorem sum_extra (h : ReformData → Nat) {R : List (Lit × ReformData)} (hr : (R.map Prod.fst).Nodup) {ks : List Lit}
    (hk : ks.Nodup) (hs : ∀ l ∈ R.map Prod.fst, l ∈ ks) : (ks.map (extra h R)).sum = rsum h R := by
  induction R with
  | nil =>
    have : ks.map (extra h []) = ks.map fun _ => 0 := List.map_congr_left fun l _ => by simp [extra, mapGet]
    rw [this]
    simp [rsum]
  | cons p R ih =>
    obtain ⟨k, rd⟩ := p
    simp only [List.map_cons, List.nodup_cons] at hr
    have e : ks.map (extra h ((k, rd) :: R)) = ks.map fun l => (if k = l then rd.totWeight * h rd else 0) + extra h R l := by
      refine List.map_congr_left fun l _ => ?_
      simp only [extra, mapGet]
      by_cases hkl : k = l
      · subst hkl
        simp only [if_pos]
        rw [mapGet_none.2 hr.1]
        rfl
      · simp only [if_neg hkl, Nat.zero_add]
    rw [e, sum_map_add, sum_ite_eq hk (hs k (by simp)), ih hr.2 fun l hl => hs l (by simp [hl])]
    simp [rsum]

/-- Value of a literal of the reformulated objective with what its totalizer adds. -/
def litVal (d : D) (R : List (Lit × ReformData)) (t : Asg) (p : Lit × Nat) : Nat :=
  p.2 * litV d R t p.1 + extra (fun rd => cnt d rd.root t - (rd.oidx + 1)) R p.1

/-- The largest value of the same. -/
def litMax (d : D) (R : List (Lit × ReformData)) (p : Lit × Nat) : Nat :=
  p.2 + extra (fun rd => TotDb.len d rd.root - (rd.oidx + 1)) R p.1

/-- What is left of the invariant of the search when it is done. -/
structure MergeOK (pb : Pb) (o : Objective) (d : D) (I : List (Lit × Nat)) (R : List (Lit × ReformData)) (off : Nat) :
    Prop where
  keys : (I.map Prod.fst).Nodup
  rkeys : (R.map Prod.fst).Nodup
  pos : ∀ l w, (l, w) ∈ I → 0 < w
  refs : ∀ l rd, mapGet l R = some rd → Node d rd.root ∧ rd.oidx < TotDb.len d rd.root ∧ 0 < rd.totWeight ∧
    l ∈ I.map Prod.fst
  orig : ∀ l w, (l, w) ∈ I → mapGet l R = none → l.var < pb.n0
  ident : ∀ t, pb.Sol t → icost o t = off + wsum (litV d R t) I + rsum (fun rd => cnt d rd.root t - (rd.oidx + 1)) R
  total : off + wsum (fun _ => 1) I + rsum (fun rd => TotDb.len d rd.root - (rd.oidx + 1)) R = maxCost o

variable {I : List (Lit × Nat)} {R : List (Lit × ReformData)} {off : Nat}

theorem OllDone.merge {n : Nat} {s0 : Slv P C} {d0 : D} {reform : Reform} (h : OllDone pb env n o s0 d0 reform d s)
    (hob : ∀ l ∈ objLits o, l.var < pb.n0) :
    MergeOK pb o d reform.inactives.iter reform.refs reform.offset where
  keys := h.ref.keys
  rkeys := h.ref.rkeys
  pos := h.pos
  refs := fun l rd hg => by
    obtain ⟨h1, -, h3, h4, w, -, h5⟩ := h.ref.refs l rd hg
    exact ⟨LawfulTotDb.inner_node _ _ h1, h3, h4, List.mem_map.2 ⟨_, h5, rfl⟩⟩
  orig := fun l w hl hg => hob l (h.ref.orig l w hl (h.pos l w hl) hg)
  ident := fun t ht => by
    rw [h.ref.ident t ht]
    simp [usum]
  total := by
    obtain ⟨t, ht, -⟩ := h.opt
    rw [← h.ref.total ⟨t, ht⟩]
    simp [usum]

theorem litV_keep (k : DKeep d d') {l : Lit} (hn : ∀ rd, mapGet l R = some rd → Node d rd.root) (t : Asg) :
    litV d' R t l = litV d R t l := by
  unfold litV
  cases hg : mapGet l R with
  | none => rfl
  | some rd => simp only; rw [k.cnt _ _ (hn rd hg)]

theorem MergeOK.keep (h : MergeOK pb o d I R off) (k : DKeep d d') : MergeOK pb o d' I R off where
  keys := h.keys
  rkeys := h.rkeys
  pos := h.pos
  refs := fun l rd hg => by
    obtain ⟨h1, h2, h3, h4⟩ := h.refs l rd hg
    exact ⟨k.node _ h1, by rw [k.len _ h1]; exact h2, h3, h4⟩
  orig := h.orig
  ident := fun t ht => by
    rw [h.ident t ht]
    have e1 : wsum (litV d' R t) I = wsum (litV d R t) I :=
      wsum_congr fun l _ _ _ => litV_keep k (fun rd hg => (h.refs l rd hg).1) t
    have e2 : rsum (fun rd => cnt d' rd.root t - (rd.oidx + 1)) R = rsum (fun rd => cnt d rd.root t - (rd.oidx + 1)) R :=
      rsum_congr fun p hp => by rw [k.cnt _ _ (h.refs p.1 p.2 (mapGet_of_mem h.rkeys hp)).1]
    rw [e1, e2]
  total := by
    rw [← h.total]
    have : rsum (fun rd => TotDb.len d' rd.root - (rd.oidx + 1)) R = rsum (fun rd => TotDb.len d rd.root - (rd.oidx + 1)) R :=
      rsum_congr fun p hp => by rw [k.len _ (h.refs p.1 p.2 (mapGet_of_mem h.rkeys hp)).1]
    rw [this]

theorem MergeOK.reobj {pb' : Pb} {o' : Objective} (h : MergeOK pb o d I R off) (hF : pb'.F = pb.F) (hn : pb'.n0 = pb.n0)
    (ho : o'.iter = o.iter) : MergeOK pb' o' d I R off where
  keys := h.keys
  rkeys := h.rkeys
  pos := h.pos
  refs := h.refs
  orig := by rw [hn]; exact h.orig
  ident := fun t ht => by
    have e : icost o' t = icost o t := by unfold icost; rw [ho]
    rw [e]
    refine h.ident t ?_
    unfold Pb.Sol at ht ⊢
    rw [← hF]
    exact ht
  total := by
    have : maxCost o' = maxCost o := by unfold maxCost; rw [ho]
    rw [this]
    exact h.total

theorem sum_wsum_extra (f : Lit → Nat) (g : ReformData → Nat) (h : MergeOK pb o d I R off) :
    (I.map fun p => p.2 * f p.1 + extra g R p.1).sum = wsum f I + rsum g R := by
  have e : (I.map fun p => extra g R p.1).sum = rsum g R := by
    rw [← sum_extra g h.rkeys h.keys, List.map_map]
    · rfl
    · intro l hl
      obtain ⟨rd, hg⟩ : ∃ rd, mapGet l R = some rd := by
        cases hg : mapGet l R with
        | none => exact absurd hl (mapGet_none.1 hg)
        | some rd => exact ⟨rd, rfl⟩
      exact (h.refs l rd hg).2.2.2
  rw [← e]
  unfold wsum
  clear e h
  induction I with
  | nil => rfl
  | cons p I ih => simp only [List.map_cons, List.sum_cons, ih]; omega

theorem MergeOK.sumVal (h : MergeOK pb o d I R off) {t : Asg} (ht : pb.Sol t) :
    icost o t = off + (I.map (litVal d R t)).sum := by
  rw [h.ident t ht, Nat.add_assoc, ← sum_wsum_extra (litV d R t) _ h]
  rfl

theorem MergeOK.sumMax (h : MergeOK pb o d I R off) : off + (I.map (litMax d R)).sum = maxCost o := by
  rw [← h.total, Nat.add_assoc, ← sum_wsum_extra (fun _ => 1) _ h]
  simp
  rfl

/-! ## Connections of the literals -/

/-- The database was only extended. -/
structure MStep (b : Nat) (d d' : D) : Prop where
  keep : DKeep d d'
  sound : ∀ m, Sound d m → Sound d' m
  exact : ∀ m, Exact d m → Exact d' m
  below : ∀ n, b ≤ n → Below d n → Below d' n

theorem MStep.refl (b : Nat) (d : D) : MStep b d d := ⟨DKeep.refl d, fun _ h => h, fun _ h => h, fun _ _ h => h⟩

theorem MStep.trans {b : Nat} (h : MStep b d d') (h' : MStep b d' d'') : MStep b d d'' :=
  ⟨h.keep.trans h'.keep, fun m hm => h'.sound m (h.sound m hm), fun m hm => h'.exact m (h.exact m hm),
    fun n hn hb => h'.below n hn (h.below n hn hb)⟩

/-- A limit of the connection has no effect. -/
def Moot (d : D) (c : NodeCon) : Prop := ∀ k, c.limit = some k → TotDb.len d c.id - c.offset ≤ k

theorem Moot.keep {c : NodeCon} (h : Moot d c) (hc : Node d c.id) (k : DKeep d d') : Moot d' c := fun x hx => by
  rw [k.len _ hc]; exact h x hx

/-- A connection that can be merged. -/
structure ConFine (d : D) (w : Nat) (c : NodeCon) : Prop where
  node : Node d c.id
  pos : 0 < c.weight
  len : 0 < conLen d c
  max : c.weight ≤ w

theorem ConFine.keep {w : Nat} {c : NodeCon} (h : ConFine d w c) (k : DKeep d d') : ConFine d' w c :=
  ⟨k.node _ h.node, h.pos, by rw [conLen_keep k h.node]; exact h.len, h.max⟩

/-- Weight bound for one literal. -/
def litW (R : List (Lit × ReformData)) (p : Lit × Nat) : Nat :=
  match mapGet p.1 R with
  | some rd => max rd.totWeight p.2
  | none => p.2

/-- What the connections of some literals count. -/
structure ConsFor (d : D) (R : List (Lit × ReformData)) (w : Nat) (lits : List (Lit × Nat)) (cons : List NodeCon) : Prop where
  fine : ∀ c ∈ cons, ConFine d w c
  val : ∀ t, (cons.map (conVal d t)).sum = (lits.map (litVal d R t)).sum
  len : (cons.map fun c => c.weight * conLen d c).sum = (lits.map (litMax d R)).sum
  longer : lits.length ≤ cons.length
  moot : ∀ c, cons = [c] → Moot d c

theorem sum_single (id a k w c : Nat) (d : D) (t : Asg) (hc : cnt d id t = c) :
    (((List.range' a k).map fun i => NodeCon.single id (i + 1) w).map (conVal d t)).sum = w * min k (c - a) := by
  induction k generalizing a with
  | zero => simp
  | succ k ih =>
    rw [List.range'_succ, List.map_cons, List.map_cons, List.sum_cons, ih]
    simp only [conVal, NodeCon.single, NodeCon.cap, Nat.add_sub_cancel, hc]
    rw [← Nat.mul_add]
    congr 1
    omega

theorem sum_singleLen (id a k w l : Nat) (d : D) (hc : TotDb.len d id = l) :
    (((List.range' a k).map fun i => NodeCon.single id (i + 1) w).map fun c => c.weight * conLen d c).sum =
      w * min k (l - a) := by
  induction k generalizing a with
  | zero => simp
  | succ k ih =>
    rw [List.range'_succ, List.map_cons, List.map_cons, List.sum_cons, ih]
    simp only [conLen, NodeCon.single, NodeCon.cap, Nat.add_sub_cancel, hc]
    rw [← Nat.mul_add]
    congr 1
    omega

theorem litVal_some {p : Lit × Nat} {rd : ReformData} (hg : mapGet p.1 R = some rd) (t : Asg) :
    litVal d R t p = p.2 * (if rd.oidx < cnt d rd.root t then 1 else 0) + rd.totWeight * (cnt d rd.root t - (rd.oidx + 1)) := by
  unfold litVal litV extra
  simp only [hg]

theorem litMax_some {p : Lit × Nat} {rd : ReformData} (hg : mapGet p.1 R = some rd) :
    litMax d R p = p.2 + rd.totWeight * (TotDb.len d rd.root - (rd.oidx + 1)) := by
  unfold litMax extra
  simp only [hg]

theorem cap_one (x : Nat) (y : Nat) (h : y = x + 1 - 1) (c : Nat) : min 1 (c - y) = if x < c then 1 else 0 := by
  subst h
  split <;> omega

theorem wp_litCons {Q : List NodeCon × D → Slv P C → Prop} {b : Nat} (rebase : Bool) (p : Lit × Nat) (hw : 0 < p.2)
    (hr : ∀ rd, mapGet p.1 R = some rd → Node d rd.root ∧ rd.oidx < TotDb.len d rd.root ∧ 0 < rd.totWeight)
    (ho : mapGet p.1 R = none → p.1.var < b)
    (hQ : ∀ cs d', MStep b d d' → ConsFor d' R (litW R p) [p] cs → Q (cs, d') s) :
    wp env (litCons R rebase d p) Q E s := by
  unfold litCons
  cases hg : mapGet p.1 R with
  | none =>
    simp only
    rw [wp_pure]
    have hst := LawfulTotDb.leaf_step d p.1
    have hcnt := LawfulTotDb.leaf_cnt d p.1
    have hlen := LawfulTotDb.leaf_len d p.1
    have hnode := LawfulTotDb.leaf_node d p.1
    refine hQ _ _ ⟨hst.toDKeep, LawfulTotDb.leaf_sound d p.1, LawfulTotDb.leaf_exact d p.1,
      fun n hn hb => LawfulTotDb.leaf_below d p.1 n hb (Nat.lt_of_lt_of_le (ho hg) hn)⟩ ⟨?_, ?_, ?_, by simp, ?_⟩
    · intro c hc
      simp only [List.mem_singleton] at hc
      subst hc
      refine ⟨hnode, hw, ?_, ?_⟩
      · simp [conLen, NodeCon.weighted, NodeCon.cap, hlen]
      · simp [litW, hg, NodeCon.weighted]
    · intro t
      simp [conVal, NodeCon.weighted, NodeCon.cap, hcnt, litVal, litV, extra, hg]
    · simp [conLen, NodeCon.weighted, NodeCon.cap, hlen, litMax, extra, hg]
    · intro c hc k hk
      simp only [List.cons.injEq, and_true] at hc
      subst hc
      simp [NodeCon.weighted] at hk
  | some rd =>
    obtain ⟨h1, h2, h3⟩ := hr rd hg
    simp only
    rw [wp_bind]
    refine wp_dbg (by simp; omega) ?_
    rw [wp_bind]
    refine wp_dbg (by simpa using h2) ?_
    have hmx : ∀ x, x = p.2 ∨ x = rd.totWeight → x ≤ litW R p := by
      rintro x (rfl | rfl) <;> simp only [litW, hg] <;> omega
    have hcl := fun t => LawfulTotDb.cnt_le d rd.root t h1
    have hfirst : ConFine d (litW R p) (NodeCon.single rd.root (rd.oidx + 1) p.2) := by
      refine ⟨h1, hw, ?_, hmx _ (.inl rfl)⟩
      simp only [conLen, NodeCon.single, NodeCon.cap, Nat.add_sub_cancel]
      omega
    have hval1 : ∀ t, conVal d t (NodeCon.single rd.root (rd.oidx + 1) p.2) =
        p.2 * (if rd.oidx < cnt d rd.root t then 1 else 0) := fun t => by
      simp only [conVal, NodeCon.single, NodeCon.cap]
      rw [cap_one rd.oidx _ rfl]
    have hlen1 : conLen d (NodeCon.single rd.root (rd.oidx + 1) p.2) = 1 := by
      simp only [conLen, NodeCon.single, NodeCon.cap, Nat.add_sub_cancel]
      omega
    split
    · rw [wp_pure]
      refine hQ _ _ (MStep.refl b d) ⟨?_, ?_, ?_, by simp, ?_⟩
      · intro c hc
        rcases List.mem_cons.1 hc with rfl | hc
        · exact hfirst
        · obtain ⟨i, hi, rfl⟩ := List.mem_map.1 hc
          rw [List.mem_range'_1] at hi
          refine ⟨h1, h3, ?_, hmx _ (.inr rfl)⟩
          simp only [conLen, NodeCon.single, NodeCon.cap, Nat.add_sub_cancel]
          omega
      · intro t
        rw [List.map_cons, List.sum_cons, sum_single _ _ _ _ _ d t rfl, hval1]
        simp only [List.map_cons, List.map_nil, List.sum_cons, List.sum_nil, Nat.add_zero]
        rw [litVal_some hg]
        have := hcl t
        have : min (TotDb.len d rd.root - (rd.oidx + 1)) (cnt d rd.root t - (rd.oidx + 1)) =
            cnt d rd.root t - (rd.oidx + 1) := by omega
        rw [this]
      · rw [List.map_cons, List.sum_cons, sum_singleLen _ _ _ _ _ d rfl, hlen1]
        simp only [List.map_cons, List.map_nil, List.sum_cons, List.sum_nil, Nat.add_zero]
        rw [litMax_some hg, Nat.min_self]
        simp [NodeCon.single]
      · intro c hc k hk
        simp only [List.cons.injEq, List.map_eq_nil_iff, List.range'_eq_nil_iff] at hc
        obtain ⟨rfl, hc⟩ := hc
        simp only [NodeCon.single, Option.some.injEq] at hk
        subst hk
        simp only [NodeCon.single]
        omega
    · split
      · next hww =>
        rw [wp_pure]
        refine hQ _ _ (MStep.refl b d) ⟨?_, ?_, ?_, by simp, ?_⟩
        · intro c hc
          simp only [List.mem_singleton] at hc
          subst hc
          refine ⟨h1, hw, ?_, hmx _ (.inl rfl)⟩
          simp only [conLen, NodeCon.offsetWeighted, NodeCon.cap]
          omega
        · intro t
          simp only [List.map_cons, List.map_nil, List.sum_cons, List.sum_nil, Nat.add_zero]
          rw [litVal_some hg, hww, ← Nat.mul_add]
          simp only [conVal, NodeCon.offsetWeighted, NodeCon.cap]
          congr 1
          split <;> omega
        · simp only [List.map_cons, List.map_nil, List.sum_cons, List.sum_nil, Nat.add_zero]
          rw [litMax_some hg, hww]
          simp only [conLen, NodeCon.offsetWeighted, NodeCon.cap]
          have : TotDb.len d rd.root - rd.oidx = (TotDb.len d rd.root - (rd.oidx + 1)) + 1 := by omega
          rw [this, Nat.mul_add]
          omega
        · intro c hc k hk
          simp only [List.cons.injEq, and_true] at hc
          subst hc
          simp [NodeCon.offsetWeighted] at hk
      · rw [wp_pure]
        refine hQ _ _ (MStep.refl b d) ?_
        split
        · next hlt =>
          refine ⟨?_, ?_, ?_, by simp, by simp⟩
          · intro c hc
            simp only [List.mem_cons, List.not_mem_nil, or_false] at hc
            rcases hc with rfl | rfl
            · exact hfirst
            · refine ⟨h1, h3, ?_, hmx _ (.inr rfl)⟩
              simp only [conLen, NodeCon.offsetWeighted, NodeCon.cap]
              omega
          · intro t
            simp only [List.map_cons, List.map_nil, List.sum_cons, List.sum_nil, Nat.add_zero, hval1]
            rw [litVal_some hg]
            simp only [conVal, NodeCon.offsetWeighted, NodeCon.cap]
          · simp only [List.map_cons, List.map_nil, List.sum_cons, List.sum_nil, Nat.add_zero, hlen1]
            rw [litMax_some hg]
            simp only [conLen, NodeCon.offsetWeighted, NodeCon.cap, NodeCon.single]
            omega
        · next hlt =>
          refine ⟨?_, ?_, ?_, by simp, ?_⟩
          · intro c hc
            simp only [List.mem_singleton] at hc
            subst hc
            exact hfirst
          · intro t
            simp only [List.map_cons, List.map_nil, List.sum_cons, List.sum_nil, Nat.add_zero, hval1]
            rw [litVal_some hg]
            have := hcl t
            have : cnt d rd.root t - (rd.oidx + 1) = 0 := by omega
            rw [this]
            simp
          · simp only [List.map_cons, List.map_nil, List.sum_cons, List.sum_nil, Nat.add_zero, hlen1]
            rw [litMax_some hg]
            have : TotDb.len d rd.root - (rd.oidx + 1) = 0 := by omega
            rw [this]
            simp [NodeCon.single]
          · intro c hc k hk
            simp only [List.cons.injEq, and_true] at hc
            subst hc
            simp only [NodeCon.single, Option.some.injEq] at hk
            subst hk
            simp only [NodeCon.single]
            omega

theorem litVal_keep (k : DKeep d d') {p : Lit × Nat} (hn : ∀ rd, mapGet p.1 R = some rd → Node d rd.root) (t : Asg) :
    litVal d' R t p = litVal d R t p := by
  unfold litVal extra
  rw [litV_keep k hn]
  cases hg : mapGet p.1 R with
  | none => rfl
  | some rd => simp only; rw [k.cnt _ _ (hn rd hg)]

theorem litMax_keep (k : DKeep d d') {p : Lit × Nat} (hn : ∀ rd, mapGet p.1 R = some rd → Node d rd.root) :
    litMax d' R p = litMax d R p := by
  unfold litMax extra
  cases hg : mapGet p.1 R with
  | none => rfl
  | some rd => simp only; rw [k.len _ (hn rd hg)]

theorem ConsFor.keep {w : Nat} {lits : List (Lit × Nat)} {cons : List NodeCon} (h : ConsFor d R w lits cons)
    (hn : ∀ p ∈ lits, ∀ rd, mapGet p.1 R = some rd → Node d rd.root) (k : DKeep d d') : ConsFor d' R w lits cons where
  fine := fun c hc => (h.fine c hc).keep k
  val := fun t => by
    have e1 : cons.map (conVal d' t) = cons.map (conVal d t) :=
      List.map_congr_left fun c hc => conVal_keep k (h.fine c hc).node t
    have e2 : lits.map (litVal d' R t) = lits.map (litVal d R t) :=
      List.map_congr_left fun p hp => litVal_keep k (hn p hp) t
    rw [e1, e2, h.val]
  len := by
    have e1 : (cons.map fun c => c.weight * conLen d' c) = cons.map fun c => c.weight * conLen d c :=
      List.map_congr_left fun c hc => by rw [conLen_keep k (h.fine c hc).node]
    have e2 : lits.map (litMax d' R) = lits.map (litMax d R) :=
      List.map_congr_left fun p hp => litMax_keep k (hn p hp)
    rw [e1, e2, h.len]
  longer := h.longer
  moot := fun c hc => (h.moot c hc).keep (h.fine c (by rw [hc]; simp)).node k

theorem ConsFor.mono {w w' : Nat} {lits : List (Lit × Nat)} {cons : List NodeCon} (h : ConsFor d R w lits cons)
    (hw : w ≤ w') : ConsFor d R w' lits cons :=
  ⟨fun c hc => ⟨(h.fine c hc).node, (h.fine c hc).pos, (h.fine c hc).len, Nat.le_trans (h.fine c hc).max hw⟩,
    h.val, h.len, h.longer, h.moot⟩

theorem ConsFor.append {w : Nat} {lits lits' : List (Lit × Nat)} {cons cons' : List NodeCon} (h : ConsFor d R w lits cons)
    (h' : ConsFor d R w lits' cons') (hne : lits' ≠ []) (he : lits = [] → cons = []) :
    ConsFor d R w (lits ++ lits') (cons ++ cons') where
  fine := fun c hc => by
    rcases List.mem_append.1 hc with hc | hc
    · exact h.fine c hc
    · exact h'.fine c hc
  val := fun t => by simp only [List.map_append, List.sum_append, h.val, h'.val]
  len := by simp only [List.map_append, List.sum_append, h.len, h'.len]
  longer := by
    simp only [List.length_append]
    have := h.longer
    have := h'.longer
    omega
  moot := fun c hc => by
    cases cons with
    | nil => exact h'.moot c hc
    | cons x cons =>
      have h1 := h'.longer
      have h2 : lits'.length ≠ 0 := by simpa using hne
      have h3 := congrArg List.length hc
      simp only [List.length_append, List.length_cons, List.length_nil] at h3
      omega

theorem wp_mergeLoop {Q : List NodeCon × D → Slv P C → Prop} {b w : Nat} (rebase : Bool) (ps done : List (Lit × Nat))
    (cons : List NodeCon)
    (hp : ∀ p ∈ ps, 0 < p.2 ∧ (mapGet p.1 R = none → p.1.var < b) ∧ litW R p ≤ w)
    (hr : ∀ l rd, mapGet l R = some rd → Node d rd.root ∧ rd.oidx < TotDb.len d rd.root ∧ 0 < rd.totWeight)
    (hc : ConsFor d R w done cons) (he : done = [] → cons = [])
    (hQ : ∀ cons' d', MStep b d d' → ConsFor d' R w (done ++ ps) cons' → Q (cons', d') s) :
    wp env (mergeLoop R rebase ps cons d) Q E s := by
  induction ps generalizing done cons d with
  | nil =>
    unfold mergeLoop
    rw [wp_pure]
    exact hQ cons d (MStep.refl b d) (by rw [List.append_nil]; exact hc)
  | cons p ps ih =>
    unfold mergeLoop
    rw [wp_bind]
    obtain ⟨h1, h2, h3⟩ := hp p (by simp)
    refine wp_litCons rebase p h1 (hr p.1) h2 ?_
    intro cs d1 hm1 hc1
    refine ih (done ++ [p]) (cons ++ cs) (fun q hq => hp q (by simp [hq])) ?_ ?_ (by simp) ?_
    · intro l rd hg
      obtain ⟨g1, g2, g3⟩ := hr l rd hg
      exact ⟨hm1.keep.node _ g1, by rw [hm1.keep.len _ g1]; exact g2, g3⟩
    · exact (hc.keep (fun q _ rd hg => (hr _ rd hg).1) hm1.keep).append (hc1.mono h3) (by simp) he
    · intro cons' d' hm hc'
      refine hQ cons' d' (hm1.trans hm) ?_
      rw [List.append_assoc] at hc'
      exact hc'

theorem maxLeafWeight_le (lits : List (Lit × Nat)) : ∀ p ∈ lits, litW R p ≤ maxLeafWeight R lits := by
  unfold maxLeafWeight
  have key : ∀ (lits : List (Lit × Nat)) (m : Nat), m ≤ lits.foldl (fun m p => match mapGet p.1 R with
      | some rd => max rd.totWeight (max p.2 m)
      | none => max p.2 m) m ∧ ∀ p ∈ lits, litW R p ≤ lits.foldl (fun m p => match mapGet p.1 R with
      | some rd => max rd.totWeight (max p.2 m)
      | none => max p.2 m) m := by
    intro lits
    induction lits with
    | nil => intro m; exact ⟨Nat.le_refl _, by simp⟩
    | cons p lits ih =>
      intro m
      simp only [List.foldl_cons]
      obtain ⟨h1, h2⟩ := ih (match mapGet p.1 R with
        | some rd => max rd.totWeight (max p.2 m)
        | none => max p.2 m)
      have hm : m ≤ (match mapGet p.1 R with
          | some rd => max rd.totWeight (max p.2 m)
          | none => max p.2 m) ∧ litW R p ≤ (match mapGet p.1 R with
          | some rd => max rd.totWeight (max p.2 m)
          | none => max p.2 m) := by
        unfold litW
        cases mapGet p.1 R with
        | none => simp only; omega
        | some rd => simp only; omega
      refine ⟨Nat.le_trans hm.1 h1, fun q hq => ?_⟩
      rcases List.mem_cons.1 hq with rfl | hq
      · exact Nat.le_trans hm.2 h1
      · exact h2 q hq
  exact (key lits 0).2

/-! ## The encoding -/

variable [MergeEnc P C D] [LawfulMergeEnc P C D]

/-- What is needed of an encoding that replaces that of objective `o`. -/
structure GoodEnc (pb : Pb) (o : Objective) (d : D) (off : Nat) (e : ObjEnc P C) : Prop where
  below : ∀ n, pb.n0 ≤ n → Below d n → e.Below n
  sound : ∀ m, pb.Sol m → Sound d m → e.Sound o m
  exact : ∀ m, pb.Sol m → Exact d m → e.Exact o m
  encFor : EncFor pb e o
  top : e.top ≤ maxCost o
  offset : e.isConstant = false → e.offset = off
  const : e.isConstant = true → ∀ t, pb.Sol t → icost o t = off

theorem wp_mergeCons_raw {Q : ObjEnc P C → Slv P C → Prop} {d0 : D} {cons : List NodeCon} {w : Nat}
    (hm : MStep pb.n0 d0 d) (hcne : cons ≠ []) (hfine : ∀ c ∈ cons, ConFine d w c)
    (hsum : ∀ t, pb.Sol t → icost o t = off + (cons.map (conVal d t)).sum)
    (hlen : off + (cons.map fun c => c.weight * conLen d c).sum ≤ maxCost o)
    (hone : ∀ c, cons = [c] → (∀ t, pb.Sol t → c.cap (cnt d c.id t - c.offset) = cnt d c.id t - c.offset) ∧
      off + c.weight * (TotDb.len d c.id - c.offset) ≤ maxCost o)
    (hQ : ∀ e, GoodEnc pb o d0 off e → Q e s) : wp env (mergeCons cons d off w) Q E s := by
  unfold mergeCons
  obtain ⟨r1, r2, r3, r4, r5, r6⟩ := LawfulMergeEnc.merge_root (P := P) (C := C) d cons hcne
    fun c hc' => ⟨(hfine c hc').node, (hfine c hc').pos, (hfine c hc').len⟩
  have k1 := LawfulMergeEnc.merge_sound (P := P) (C := C) d cons
  have k2 := LawfulMergeEnc.merge_exact (P := P) (C := C) d cons
  have k3 := LawfulMergeEnc.merge_below (P := P) (C := C) d cons
  have r6 := r6 w fun c hc' => (hfine c hc').max
  have htop : off + (MergeEnc.mergeThorough P C d cons).2.weight *
      conLen (MergeEnc.mergeThorough P C d cons).1 (MergeEnc.mergeThorough P C d cons).2 ≤ maxCost o := by
    rw [r3]; exact hlen
  have hmoot : (∀ t, pb.Sol t → (MergeEnc.mergeThorough P C d cons).2.cap
      (cnt (MergeEnc.mergeThorough P C d cons).1 (MergeEnc.mergeThorough P C d cons).2.id t -
        (MergeEnc.mergeThorough P C d cons).2.offset) =
      cnt (MergeEnc.mergeThorough P C d cons).1 (MergeEnc.mergeThorough P C d cons).2.id t -
        (MergeEnc.mergeThorough P C d cons).2.offset) ∧
      off + (MergeEnc.mergeThorough P C d cons).2.weight * (TotDb.len (MergeEnc.mergeThorough P C d cons).1
        (MergeEnc.mergeThorough P C d cons).2.id - (MergeEnc.mergeThorough P C d cons).2.offset) ≤ maxCost o := by
    rcases r4 with h4 | ⟨h4, h5⟩
    · refine ⟨fun t _ => by simp only [NodeCon.cap, h4], ?_⟩
      simp only [conLen, NodeCon.cap, h4] at htop
      exact htop
    · rw [h4]
      exact hone _ h5
  generalize MergeEnc.mergeThorough P C d cons = r at *
  obtain ⟨d1, root⟩ := r
  simp only at *
  have hval : ∀ t, pb.Sol t → icost o t = off + conVal d1 t root := fun t ht => by rw [hsum t ht, r2]
  have hgte : GoodEnc pb o d0 off (.weighted (MergeEnc.gteFromRaw C root d1 w) off : ObjEnc P C) := by
    have v1 := fun m => LawfulMergeEnc.gte_val (P := P) (C := C) d1 root w m r1 r6
    have v2 := LawfulMergeEnc.gte_maxVal (P := P) (C := C) d1 root w r1 r6
    refine ⟨?_, ?_, ?_, ⟨?_, ?_⟩, ?_, ?_, ?_⟩
    · intro n hn hb
      exact LawfulMergeEnc.gte_below _ _ _ _ (k3 n (hm.below n hn hb))
    · intro m hs hm'
      refine ⟨LawfulMergeEnc.gte_sound _ _ _ _ (k1 m (hm.sound m hm')), ?_⟩
      rw [v1, hval m hs]
    · intro m hs hm'
      refine ⟨LawfulMergeEnc.gte_exact _ _ _ _ (k2 m (hm.exact m hm')), ?_⟩
      rw [v1, hval m hs]
    · intro t ht
      rw [hval t ht]
      exact Nat.le_add_right _ _
    · simp [ObjEnc.isConstant]
    · simp only [ObjEnc.top, v2]
      omega
    · intro _; rfl
    · simp [ObjEnc.isConstant]
  split
  · next hw1 =>
    split
    · next hu =>
      rw [wp_pure]
      apply hQ
      have v1 := fun m => LawfulMergeEnc.tot_val (P := P) (C := C) d1 root.id root.offset m r1 hu
      have v2 := LawfulMergeEnc.tot_maxVal (P := P) (C := C) d1 root.id root.offset r1 hu
      have e1 : ∀ m, pb.Sol m → cnt d1 root.id m - root.offset = conVal d1 m root := by
        intro m hs
        unfold conVal
        rw [hw1, Nat.one_mul, hmoot.1 m hs]
      refine ⟨?_, ?_, ?_, ⟨?_, ?_⟩, ?_, ?_, ?_⟩
      · intro n hn hb
        exact LawfulMergeEnc.tot_below _ _ _ _ (k3 n (hm.below n hn hb))
      · intro m hs hm'
        refine ⟨LawfulMergeEnc.tot_sound _ _ _ _ (k1 m (hm.sound m hm')), ?_⟩
        rw [v1, e1 m hs, hval m hs]
      · intro m hs hm'
        refine ⟨LawfulMergeEnc.tot_exact _ _ _ _ (k2 m (hm.exact m hm')), ?_⟩
        rw [v1, e1 m hs, hval m hs]
      · intro t ht
        rw [hval t ht]
        exact Nat.le_add_right _ _
      · simp [ObjEnc.isConstant]
      · simp only [ObjEnc.top, v2]
        have := hmoot.2
        rw [hw1] at this
        omega
      · intro _; rfl
      · simp [ObjEnc.isConstant]
    · next hu =>
      rw [wp_bind]
      refine wp_dbg (by simpa using r5 hw1 (by simpa using hu)) ?_
      rw [wp_pure]
      exact hQ _ hgte
  · rw [wp_pure]
    exact hQ _ hgte

theorem wp_mergeCons {Q : ObjEnc P C → Slv P C → Prop} {d0 : D} {cons : List NodeCon} {w : Nat}
    (hm : MStep pb.n0 d0 d) (h : MergeOK pb o d I R off) (hc : ConsFor d R w I cons) (hne : I ≠ [])
    (hQ : ∀ e, GoodEnc pb o d0 off e → Q e s) : wp env (mergeCons cons d off w) Q E s := by
  have hcne : cons ≠ [] := by
    have := hc.longer
    have : I.length ≠ 0 := by simpa using hne
    rintro rfl
    simp only [List.length_nil] at *
    omega
  refine wp_mergeCons_raw hm hcne hc.fine (fun t ht => by rw [h.sumVal ht, hc.val]) (by rw [hc.len, h.sumMax])
    (fun c hcc => ?_) hQ
  have hmo := hc.moot c hcc
  have hno := (hc.fine c (by rw [hcc]; simp)).node
  have hcap : ∀ x, x ≤ TotDb.len d c.id - c.offset → c.cap x = x := by
    intro x hx
    unfold NodeCon.cap
    cases hl : c.limit with
    | none => rfl
    | some k =>
      simp only
      have := hmo k hl
      omega
  refine ⟨fun t _ => hcap _ (by have := LawfulTotDb.cnt_le d c.id t hno; omega), ?_⟩
  have := h.sumMax
  rw [← hc.len, hcc] at this
  simp only [List.map_cons, List.map_nil, List.sum_cons, List.sum_nil, Nat.add_zero] at this
  unfold conLen at this
  rw [hcap _ (Nat.le_refl _)] at this
  omega

theorem wp_mergeReform {Q : ObjEnc P C → Slv P C → Prop} {reform : Reform} (rebase : Bool)
    (h : MergeOK pb o d reform.inactives.iter reform.refs reform.offset)
    (hc : reform.inactives ≠ .constant → reform.inactives.iter ≠ [])
    (hQ : ∀ e, GoodEnc pb o d reform.offset e → Q e s) : wp env (mergeReform reform d rebase) Q E s := by
  unfold mergeReform
  split
  · next hi =>
    rw [wp_pure]
    apply hQ
    have hI : reform.inactives.iter = [] := by rw [hi]; rfl
    have hval : ∀ t, pb.Sol t → icost o t = reform.offset := fun t ht => by
      rw [h.sumVal ht, hI]; simp
    exact ⟨fun _ _ _ => trivial, fun _ _ _ => trivial, fun _ _ _ => trivial,
      ⟨fun t _ => Nat.zero_le _, fun _ => ⟨_, hval⟩⟩, Nat.zero_le _, by simp [ObjEnc.isConstant], fun _ => hval⟩
  · next hi =>
    rw [wp_bind]
    refine wp_mergeLoop (b := pb.n0) (w := maxLeafWeight reform.refs reform.inactives.iter) rebase _ [] []
      (fun p hp => ⟨h.pos p.1 p.2 hp, fun hg => h.orig p.1 p.2 hp hg, maxLeafWeight_le _ p hp⟩) (fun l rd hg => ?_)
      ⟨by simp, by simp, by simp, by simp, by simp⟩ (fun _ => rfl) ?_
    · obtain ⟨h1, h2, h3, -⟩ := h.refs l rd hg
      exact ⟨h1, h2, h3⟩
    · intro cons d1 hm hcons
      exact wp_mergeCons hm (h.keep hm.keep) hcons (hc hi) hQ

end Scuttle
