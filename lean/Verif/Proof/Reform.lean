import Verif.Proof.TotLaws
import Verif.Proof.Init
import Verif.Proof.Harvest
import Mathlib.Tactic.Ring

/-!
# The invariant of the reformulated objective

Independent of the search: how each change that core-guided search makes to the reformulation keeps the value of the
objective on all solutions.
-/

set_option linter.unusedSectionVars false

namespace Scuttle

open Spec

/-! ## Association lists -/

section Maps

variable {α β : Type} [DecidableEq α]

theorem mapGet_mem {k : α} {v : β} {m : List (α × β)} (h : mapGet k m = some v) : (k, v) ∈ m := by
  induction m with
  | nil => simp [mapGet] at h
  | cons p m ih =>
    obtain ⟨k', v'⟩ := p
    simp only [mapGet] at h
    split at h
    · next hk => simp only [Option.some.injEq] at h; simp [hk, h]
    · exact List.mem_cons_of_mem _ (ih h)

theorem mapGet_of_mem {k : α} {v : β} {m : List (α × β)} (hn : (m.map Prod.fst).Nodup) (h : (k, v) ∈ m) :
    mapGet k m = some v := by
  induction m with
  | nil => simp at h
  | cons p m ih =>
    obtain ⟨k', v'⟩ := p
    simp only [List.map_cons, List.nodup_cons] at hn
    simp only [mapGet]
    rcases List.mem_cons.1 h with h | h
    · simp only [Prod.mk.injEq] at h
      rw [if_pos h.1.symm, h.2]
    · have : k' ≠ k := by
        rintro rfl
        exact hn.1 (List.mem_map.2 ⟨_, h, rfl⟩)
      rw [if_neg this, ih hn.2 h]

theorem mapGet_none {k : α} {m : List (α × β)} : mapGet k m = none ↔ k ∉ m.map Prod.fst := by
  induction m with
  | nil => simp [mapGet]
  | cons p m ih =>
    obtain ⟨k', v'⟩ := p
    simp only [mapGet, List.map_cons, List.mem_cons, not_or]
    split
    · next h => simp [h]
    · next h => rw [ih]; simp [Ne.symm h]

theorem mapGet_append {k : α} {m m' : List (α × β)} :
    mapGet k (m ++ m') = (mapGet k m).or (mapGet k m') := by
  induction m with
  | nil => simp [mapGet]
  | cons p m ih =>
    obtain ⟨k', v'⟩ := p
    simp only [List.cons_append, mapGet]
    split
    · simp
    · exact ih

theorem mapGet_mapRemove {k k' : α} {m : List (α × β)} :
    mapGet k' (mapRemove k m) = if k' = k then none else mapGet k' m := by
  induction m with
  | nil => simp [mapRemove, mapGet]
  | cons p m ih =>
    obtain ⟨a, v⟩ := p
    unfold mapRemove at ih ⊢
    simp only [List.filter_cons]
    split
    · next h =>
      simp only [decide_eq_true_eq] at h
      simp only [mapGet]
      split
      · next h' => subst h'; rw [if_neg h]
      · exact ih
    · next h =>
      simp only [decide_eq_true_eq, not_not] at h
      subst h
      rw [ih]
      simp only [mapGet]
      split
      · rfl
      · next h' => rw [if_neg (Ne.symm h')]

theorem mapRemove_sublist (k : α) (m : List (α × β)) : (mapRemove k m).Sublist m := List.filter_sublist

theorem nodup_mem_unique {f : β → α} {l : List β} (hn : (l.map f).Nodup) {a b : β} (ha : a ∈ l) (hb : b ∈ l)
    (h : f a = f b) : a = b := by
  induction l with
  | nil => simp at ha
  | cons x l ih =>
    simp only [List.map_cons, List.nodup_cons] at hn
    rcases List.mem_cons.1 ha with rfl | ha <;> rcases List.mem_cons.1 hb with rfl | hb
    · rfl
    · exact absurd (List.mem_map.2 ⟨b, hb, h.symm⟩) hn.1
    · exact absurd (List.mem_map.2 ⟨a, ‹a ∈ l›, h⟩) hn.1
    · exact ih hn.2 ha hb

end Maps

/-! ## Sums -/

/-- Weighted sum over literals. -/
def wsum (f : Lit → Nat) (I : List (Lit × Nat)) : Nat := (I.map fun p => p.2 * f p.1).sum

/-- Weighted sum over totalizers. -/
def rsum (g : ReformData → Nat) (R : List (Lit × ReformData)) : Nat := (R.map fun p => p.2.totWeight * g p.2).sum

/-- Weighted sum over cores. -/
def usum (h : List NodeCon → Nat) (U : List (List NodeCon × Nat)) : Nat := (U.map fun u => u.2 * h u.1).sum

/-- Lowers the weight of a literal. -/
def subKey (l : Lit) (w : Nat) (I : List (Lit × Nat)) : List (Lit × Nat) :=
  I.map fun p => if p.1 = l then (p.1, p.2 - w) else p

@[simp] theorem subKey_keys (l : Lit) (w : Nat) (I : List (Lit × Nat)) :
    (subKey l w I).map Prod.fst = I.map Prod.fst := by
  unfold subKey
  rw [List.map_map]
  refine List.map_congr_left fun p _ => ?_
  simp only [Function.comp]
  split <;> rfl

theorem mem_subKey {l x : Lit} {w y : Nat} {I : List (Lit × Nat)} (h : (x, y) ∈ subKey l w I) :
    (x ≠ l ∧ (x, y) ∈ I) ∨ (x = l ∧ ∃ z, (x, z) ∈ I ∧ y = z - w) := by
  unfold subKey at h
  obtain ⟨⟨a, b⟩, hp, he⟩ := List.mem_map.1 h
  simp only at he
  split at he
  · next hl =>
    simp only [Prod.mk.injEq] at he
    obtain ⟨rfl, rfl⟩ := he
    exact .inr ⟨hl, b, hp, rfl⟩
  · next hl =>
    simp only [Prod.mk.injEq] at he
    obtain ⟨rfl, rfl⟩ := he
    exact .inl ⟨hl, hp⟩

theorem mem_subKey_of_ne {l x : Lit} {w y : Nat} {I : List (Lit × Nat)} (h : (x, y) ∈ I) (hx : x ≠ l) :
    (x, y) ∈ subKey l w I := by
  unfold subKey
  exact List.mem_map.2 ⟨(x, y), h, by simp [hx]⟩

theorem mem_subKey_self {l : Lit} {w y : Nat} {I : List (Lit × Nat)} (h : (l, y) ∈ I) : (l, y - w) ∈ subKey l w I := by
  unfold subKey
  exact List.mem_map.2 ⟨(l, y), h, by simp⟩

theorem subKey_of_not_mem {l : Lit} {w : Nat} {I : List (Lit × Nat)} (h : l ∉ I.map Prod.fst) : subKey l w I = I := by
  unfold subKey
  conv_rhs => rw [← List.map_id I]
  refine List.map_congr_left fun p hp => ?_
  have : p.1 ≠ l := by rintro rfl; exact h (List.mem_map.2 ⟨p, hp, rfl⟩)
  simp [this]

theorem wsum_subKey (f : Lit → Nat) {I : List (Lit × Nat)} (hn : (I.map Prod.fst).Nodup) {l : Lit} {w cw : Nat}
    (hl : (l, w) ∈ I) (hw : cw ≤ w) : wsum f I = wsum f (subKey l cw I) + cw * f l := by
  induction I with
  | nil => simp at hl
  | cons p I ih =>
    obtain ⟨a, b⟩ := p
    simp only [List.map_cons, List.nodup_cons] at hn
    by_cases ha : a = l
    · subst ha
      have hb : w = b := by
        rcases List.mem_cons.1 hl with h | h
        · simp only [Prod.mk.injEq] at h; exact h.2
        · exact absurd (List.mem_map.2 ⟨_, h, rfl⟩) hn.1
      subst hb
      have : subKey a cw ((a, w) :: I) = (a, w - cw) :: I := by
        conv_rhs => rw [← subKey_of_not_mem (w := cw) hn.1]
        simp [subKey]
      rw [this]
      simp only [wsum, List.map_cons, List.sum_cons]
      have : w * f a = (w - cw) * f a + cw * f a := by rw [← Nat.add_mul, Nat.sub_add_cancel hw]
      omega
    · have h' : (l, w) ∈ I := by
        rcases List.mem_cons.1 hl with h | h
        · simp only [Prod.mk.injEq] at h; exact absurd h.1.symm ha
        · exact h
      have h1 := ih hn.2 h'
      have h2 : subKey l cw ((a, b) :: I) = (a, b) :: subKey l cw I := by simp [subKey, ha]
      rw [h2]
      simp only [wsum, List.map_cons, List.sum_cons] at h1 ⊢
      omega

theorem wsum_append (f : Lit → Nat) (I J : List (Lit × Nat)) : wsum f (I ++ J) = wsum f I + wsum f J := by
  simp [wsum]

theorem wsum_single (f : Lit → Nat) (l : Lit) (w : Nat) : wsum f [(l, w)] = w * f l := by simp [wsum]

theorem wsum_congr {f g : Lit → Nat} {I : List (Lit × Nat)} (h : ∀ l w, (l, w) ∈ I → 0 < w → f l = g l) :
    wsum f I = wsum g I := by
  unfold wsum
  congr 1
  refine List.map_congr_left fun p hp => ?_
  obtain ⟨l, w⟩ := p
  cases w with
  | zero => simp
  | succ w => rw [h l (w + 1) hp (Nat.succ_pos _)]

theorem wsum_filter (f : Lit → Nat) (I : List (Lit × Nat)) : wsum f (I.filter fun p => p.2 > 0) = wsum f I := by
  induction I with
  | nil => rfl
  | cons p I ih =>
    obtain ⟨l, w⟩ := p
    simp only [List.filter_cons]
    split
    · simp only [wsum, List.map_cons, List.sum_cons] at ih ⊢
      rw [ih]
    · next h =>
      simp only [decide_eq_true_eq] at h
      have : w = 0 := by simpa using h
      subst this
      simp only [wsum, List.map_cons, List.sum_cons] at ih ⊢
      rw [ih]; simp

theorem wsum_pos {f : Lit → Nat} {I : List (Lit × Nat)} {l : Lit} {w : Nat} (h : (l, w) ∈ I) : w * f l ≤ wsum f I := by
  unfold wsum
  induction I with
  | nil => simp at h
  | cons p I ih =>
    simp only [List.map_cons, List.sum_cons]
    rcases List.mem_cons.1 h with rfl | h
    · exact Nat.le_add_right _ _
    · exact Nat.le_trans (ih h) (Nat.le_add_left _ _)

theorem rsum_mapRemove (g : ReformData → Nat) {R : List (Lit × ReformData)} (hn : (R.map Prod.fst).Nodup) {l : Lit}
    {rd : ReformData} (h : mapGet l R = some rd) : rsum g R = rsum g (mapRemove l R) + rd.totWeight * g rd := by
  induction R with
  | nil => simp [mapGet] at h
  | cons p R ih =>
    obtain ⟨a, b⟩ := p
    simp only [List.map_cons, List.nodup_cons] at hn
    simp only [mapGet] at h
    split at h
    · next ha =>
      subst ha
      simp only [Option.some.injEq] at h
      subst h
      have : mapRemove a ((a, b) :: R) = R := by
        unfold mapRemove
        simp only [List.filter_cons, ne_eq, not_true_eq_false, decide_false, Bool.false_eq_true, if_false]
        rw [List.filter_eq_self]
        intro p hp
        simp only [decide_eq_true_eq]
        rintro rfl
        exact hn.1 (List.mem_map.2 ⟨p, hp, rfl⟩)
      rw [this]
      simp only [rsum, List.map_cons, List.sum_cons]
      omega
    · next ha =>
      have h1 := ih hn.2 h
      have : mapRemove l ((a, b) :: R) = (a, b) :: mapRemove l R := by
        unfold mapRemove
        simp [ha]
      rw [this]
      simp only [rsum, List.map_cons, List.sum_cons] at h1 ⊢
      omega

theorem rsum_append (g : ReformData → Nat) (R S : List (Lit × ReformData)) : rsum g (R ++ S) = rsum g R + rsum g S := by
  simp [rsum]

theorem rsum_single (g : ReformData → Nat) (l : Lit) (rd : ReformData) : rsum g [(l, rd)] = rd.totWeight * g rd := by
  simp [rsum]

theorem rsum_congr {g h : ReformData → Nat} {R : List (Lit × ReformData)} (e : ∀ p ∈ R, g p.2 = h p.2) :
    rsum g R = rsum h R := by
  unfold rsum
  congr 1
  exact List.map_congr_left fun p hp => by rw [e p hp]

theorem usum_congr {g h : List NodeCon → Nat} {U : List (List NodeCon × Nat)} (e : ∀ u ∈ U, g u.1 = h u.1) :
    usum g U = usum h U := by
  unfold usum
  congr 1
  exact List.map_congr_left fun p hp => by rw [e p hp]

theorem usum_append (h : List NodeCon → Nat) (U V : List (List NodeCon × Nat)) : usum h (U ++ V) = usum h U + usum h V := by
  simp [usum]

theorem usum_cons (h : List NodeCon → Nat) (u : List NodeCon × Nat) (U : List (List NodeCon × Nat)) :
    usum h (u :: U) = u.2 * h u.1 + usum h U := by simp [usum]

/-! ## The invariant -/

variable {D : Type} [TotDb D] [LawfulTotDb D]

open TotSem (Node Inner cnt Sound Exact Below Inputs Base IsOut)

theorem DKeep.refl (d : D) : DKeep d d := ⟨fun _ h => h, fun _ h => h, fun _ _ _ => rfl, fun _ _ => rfl⟩

theorem DKeep.trans {d d' d'' : D} (h : DKeep d d') (h' : DKeep d' d'') : DKeep d d'' :=
  ⟨fun i hi => h'.node i (h.node i hi), fun i hi => h'.inner i (h.inner i hi),
    fun i m hi => (h'.cnt i m (h.node i hi)).trans (h.cnt i m hi), fun i hi => (h'.len i (h.node i hi)).trans (h.len i hi)⟩

theorem DStep.refl (d : D) : DStep d d := ⟨DKeep.refl d, fun _ _ _ h => h⟩

theorem DStep.trans {d d' d'' : D} (h : DStep d d') (h' : DStep d' d'') : DStep d d'' :=
  ⟨h.toDKeep.trans h'.toDKeep, fun i j l hi => h'.out i j l (h.out i j l hi)⟩

theorem conVal_keep {d d' : D} (h : DKeep d d') {c : NodeCon} (hc : Node d c.id) (m : Asg) :
    conVal d' m c = conVal d m c := by unfold conVal; rw [h.cnt _ _ hc]

theorem conLen_keep {d d' : D} (h : DKeep d d') {c : NodeCon} (hc : Node d c.id) : conLen d' c = conLen d c := by
  unfold conLen; rw [h.len _ hc]

/-- A connection as used in cores: one output of weight 1. -/
structure ConOK (d : D) (c : NodeCon) : Prop where
  node : Node d c.id
  weight : c.weight = 1
  len : conLen d c = 1

theorem ConOK.keep {d d' : D} (h : DKeep d d') {c : NodeCon} (hc : ConOK d c) : ConOK d' c :=
  ⟨h.node _ hc.node, hc.weight, by rw [conLen_keep h hc.node, hc.len]⟩

/-- What a literal of the reformulated objective stands for: for an output of a totalizer, whether there are more true
inputs. -/
def litV (d : D) (R : List (Lit × ReformData)) (t : Asg) (l : Lit) : Nat :=
  match mapGet l R with
  | some rd => if rd.oidx < cnt d rd.root t then 1 else 0
  | none => if l.eval t = true then 1 else 0

theorem litV_le (d : D) (R : List (Lit × ReformData)) (t : Asg) (l : Lit) : litV d R t l ≤ 1 := by
  unfold litV; split <;> split <;> simp

/-- Invariant of the reformulation. `I` are the literals with their weights, `R` the totalizers, `U` the cores that are
not yet reformulated, `off` the offset, `pend` the connections for the core that is being relaxed, with weight `pw`. -/
structure RefOK (pb : Pb) (o : Objective) (d : D) (I : List (Lit × Nat)) (R : List (Lit × ReformData))
    (U : List (List NodeCon × Nat)) (off pw : Nat) (pend : List NodeCon) : Prop where
  keys : (I.map Prod.fst).Nodup
  rkeys : (R.map Prod.fst).Nodup
  roots : (R.map fun p => p.2.root).Nodup
  refs : ∀ l rd, mapGet l R = some rd → Inner d rd.root ∧ IsOut d rd.root rd.oidx l ∧ rd.oidx < TotDb.len d rd.root ∧
    0 < rd.totWeight ∧ ∃ w, 0 < w ∧ (l, w) ∈ I
  orig : ∀ l w, (l, w) ∈ I → 0 < w → mapGet l R = none → l ∈ objLits o
  aux : ∀ l w, (l, w) ∈ I → l ∉ objLits o → ∃ root i, Inner d root ∧ IsOut d root i l ∧
    ∀ l' rd, mapGet l' R = some rd → rd.root = root → i ≤ rd.oidx
  cores : ∀ u ∈ U, 2 ≤ u.1.length ∧ 0 < u.2 ∧ (∀ c ∈ u.1, ConOK d c) ∧
    ∀ t, pb.Sol t → 1 ≤ (u.1.map (conVal d t)).sum
  pendOK : ∀ c ∈ pend, ConOK d c
  lew : ∀ l rd w, mapGet l R = some rd → (l, w) ∈ I → w ≤ rd.totWeight
  ident : ∀ t, pb.Sol t → icost o t = off + wsum (litV d R t) I + rsum (fun rd => cnt d rd.root t - (rd.oidx + 1)) R +
    usum (fun cons => (cons.map (conVal d t)).sum - 1) U + pw * (pend.map (conVal d t)).sum
  total : (∃ t, pb.Sol t) → off + wsum (fun _ => 1) I + rsum (fun rd => TotDb.len d rd.root - (rd.oidx + 1)) R +
    usum (fun cons => cons.length - 1) U + pw * pend.length = maxCost o

variable {pb : Pb} {o : Objective} {d d' : D} {I : List (Lit × Nat)} {R : List (Lit × ReformData)}
  {U : List (List NodeCon × Nat)} {off pw : Nat} {pend : List NodeCon}

theorem RefOK.node (h : RefOK pb o d I R U off pw pend) {p : Lit × ReformData} (hp : p ∈ R) : Node d p.2.root :=
  LawfulTotDb.inner_node _ _ (h.refs p.1 p.2 (mapGet_of_mem h.rkeys hp)).1

theorem RefOK.litV_keep (h : RefOK pb o d I R U off pw pend) (k : DKeep d d') (t : Asg) (l : Lit) :
    litV d' R t l = litV d R t l := by
  unfold litV
  cases hg : mapGet l R with
  | none => rfl
  | some rd =>
    simp only
    rw [k.cnt _ _ (LawfulTotDb.inner_node _ _ (h.refs l rd hg).1)]

/-- The sum of what the connections count does not change with the database. -/
theorem sum_conVal_keep (k : DKeep d d') {cons : List NodeCon} (h : ∀ c ∈ cons, ConOK d c) (t : Asg) :
    (cons.map (conVal d' t)).sum = (cons.map (conVal d t)).sum := by
  congr 1
  exact List.map_congr_left fun c hc => conVal_keep k (h c hc).node t

theorem RefOK.step (h : RefOK pb o d I R U off pw pend) (k : DStep d d') : RefOK pb o d' I R U off pw pend where
  keys := h.keys
  rkeys := h.rkeys
  roots := h.roots
  refs := fun l rd hg => by
    obtain ⟨h1, h2, h3, h4, h5⟩ := h.refs l rd hg
    exact ⟨k.inner _ h1, k.out _ _ _ h2, by rw [k.len _ (LawfulTotDb.inner_node _ _ h1)]; exact h3, h4, h5⟩
  orig := h.orig
  aux := fun l w hl hn => by
    obtain ⟨root, i, h1, h2, h3⟩ := h.aux l w hl hn
    exact ⟨root, i, k.inner _ h1, k.out _ _ _ h2, h3⟩
  cores := fun u hu => by
    obtain ⟨h1, h2, h3, h4⟩ := h.cores u hu
    exact ⟨h1, h2, fun c hc => (h3 c hc).keep k.toDKeep, fun t ht => by rw [sum_conVal_keep k.toDKeep h3]; exact h4 t ht⟩
  pendOK := fun c hc => (h.pendOK c hc).keep k.toDKeep
  lew := h.lew
  ident := fun t ht => by
    rw [h.ident t ht]
    have e1 : wsum (litV d' R t) I = wsum (litV d R t) I := wsum_congr fun l _ _ _ => h.litV_keep k.toDKeep t l
    have e2 : rsum (fun rd => cnt d' rd.root t - (rd.oidx + 1)) R = rsum (fun rd => cnt d rd.root t - (rd.oidx + 1)) R :=
      rsum_congr fun p hp => by rw [k.cnt _ _ (h.node hp)]
    have e3 : usum (fun cons => (cons.map (conVal d' t)).sum - 1) U = usum (fun cons => (cons.map (conVal d t)).sum - 1) U :=
      usum_congr fun u hu => by rw [sum_conVal_keep k.toDKeep (h.cores u hu).2.2.1]
    rw [e1, e2, e3, sum_conVal_keep k.toDKeep h.pendOK]
  total := fun hs => by
    rw [← h.total hs]
    have : rsum (fun rd => TotDb.len d' rd.root - (rd.oidx + 1)) R = rsum (fun rd => TotDb.len d rd.root - (rd.oidx + 1)) R :=
      rsum_congr fun p hp => by rw [k.len _ (h.node hp)]
    rw [this]

/-- At the start, the literals are those of the objective. -/
theorem RefOK.init (hn : (objLits o).Nodup) (hI : I.map Prod.fst = objLits o)
    (hl : ∀ t, icost o t = wsum (fun l => if l.eval t = true then 1 else 0) I)
    (hm : maxCost o = wsum (fun _ => 1) I) : RefOK pb o d I [] [] 0 pw [] where
  keys := by rw [hI]; exact hn
  rkeys := List.nodup_nil
  roots := List.nodup_nil
  refs := fun l rd h => by simp [mapGet] at h
  orig := fun l w h _ _ => by rw [← hI]; exact List.mem_map.2 ⟨_, h, rfl⟩
  aux := fun l w h hn => absurd (by rw [← hI]; exact List.mem_map.2 ⟨_, h, rfl⟩) hn
  cores := by simp
  pendOK := by simp
  lew := fun l rd w hg => by simp [mapGet] at hg
  ident := fun t _ => by
    rw [hl t]
    simp [rsum, usum, litV, mapGet]
    rfl
  total := fun _ => by rw [hm]; simp [rsum, usum]

/-- Literals of weight 0 can be dropped. -/
theorem RefOK.clean (h : RefOK pb o d I R U off pw pend) : RefOK pb o d (I.filter fun p => p.2 > 0) R U off pw pend where
  keys := h.keys.sublist (List.filter_sublist.map _)
  rkeys := h.rkeys
  roots := h.roots
  refs := fun l rd hg => by
    obtain ⟨h1, h2, h3, h4, w, h5, h6⟩ := h.refs l rd hg
    exact ⟨h1, h2, h3, h4, w, h5, by simp [h6, h5]⟩
  orig := fun l w hl => h.orig l w (List.mem_of_mem_filter hl)
  aux := fun l w hl => h.aux l w (List.mem_of_mem_filter hl)
  cores := h.cores
  pendOK := h.pendOK
  lew := fun l rd w hg hl => h.lew l rd w hg (List.mem_of_mem_filter hl)
  ident := fun t ht => by rw [wsum_filter]; exact h.ident t ht
  total := fun hs => by rw [wsum_filter]; exact h.total hs

/-- An output that was just built is not a literal of the reformulation yet. -/
theorem RefOK.fresh (h : RefOK pb o d I R U off pw pend) (hob : ∀ l ∈ objLits o, l.var < pb.n0) (k : DStep d d')
    (hb : Base d' pb.n0) {root i : Nat} {new : Lit} (hin : Inner d' root) (hout : IsOut d' root i new)
    (hnew : Inner d root → ∃ l rd, mapGet l R = some rd ∧ rd.root = root ∧ rd.oidx < i) : new ∉ I.map Prod.fst := by
  intro hm
  obtain ⟨⟨l, w⟩, hp, rfl⟩ := List.mem_map.1 hm
  have hv := LawfulTotDb.out_base _ _ _ _ _ hb hin hout
  obtain ⟨root', i', h1, h2, h3⟩ := h.aux l w hp (fun hl => by have := hob _ hl; simp only at hv; omega)
  obtain ⟨rfl, rfl⟩ := LawfulTotDb.out_inj _ _ _ _ _ _ hin (k.inner _ h1) hout (k.out _ _ _ h2)
  obtain ⟨l', rd, h4, h5, h6⟩ := hnew h1
  have := h3 l' rd h4 h5
  omega

theorem RefOK.rkey_mem (h : RefOK pb o d I R U off pw pend) {l : Lit} (hl : l ∈ R.map Prod.fst) : l ∈ I.map Prod.fst := by
  obtain ⟨⟨l, rd⟩, hp, rfl⟩ := List.mem_map.1 hl
  obtain ⟨-, -, -, -, w, -, hw⟩ := h.refs l rd (mapGet_of_mem h.rkeys hp)
  exact List.mem_map.2 ⟨_, hw, rfl⟩

/-! ## Relaxing a literal of a core -/

theorem conVal_single (root oidx : Nat) (t : Asg) :
    conVal d t (NodeCon.single root (oidx + 1) 1) = if oidx < cnt d root t then 1 else 0 := by
  unfold conVal NodeCon.single NodeCon.cap
  simp only [Nat.add_sub_cancel, Nat.one_mul]
  split <;> omega

theorem conLen_single {root oidx : Nat} (h : oidx < TotDb.len d root) : conLen d (NodeCon.single root (oidx + 1) 1) = 1 := by
  unfold conLen NodeCon.single NodeCon.cap
  simp only [Nat.add_sub_cancel]
  omega

/-- The literal is not an output. -/
theorem RefOK.relaxLeaf (h : RefOK pb o d I R U off pw pend) {l : Lit} {w : Nat} (hl : (l, w) ∈ I)
    (hw : pw ≤ w) (hr : mapGet l R = none) (hd' : d' = (TotDb.leaf d l).1) :
    RefOK pb o d' (subKey l pw I) R U off pw (pend ++ [NodeCon.full (TotDb.leaf d l).2]) ∧
    ∀ t, conVal d' t (NodeCon.full (TotDb.leaf d l).2) = litV d R t l := by
  subst hd'
  have h' := h.step (LawfulTotDb.leaf_step d l)
  have hv : ∀ t, conVal (TotDb.leaf d l).1 t (NodeCon.full (TotDb.leaf d l).2) = litV d R t l := by
    intro t
    unfold conVal NodeCon.full NodeCon.cap litV
    simp only [hr, LawfulTotDb.leaf_cnt, Nat.one_mul, Nat.sub_zero]
  refine ⟨?_, hv⟩
  exact {
    keys := by rw [subKey_keys]; exact h.keys
    rkeys := h.rkeys
    roots := h.roots
    refs := fun x rd hg => by
      obtain ⟨h1, h2, h3, h4, y, h5, h6⟩ := h'.refs x rd hg
      refine ⟨h1, h2, h3, h4, y, h5, mem_subKey_of_ne h6 ?_⟩
      rintro rfl
      rw [hr] at hg
      simp at hg
    orig := fun x y hx hy hg => by
      rcases mem_subKey hx with ⟨-, hx⟩ | ⟨rfl, z, hz, rfl⟩
      · exact h.orig x y hx hy hg
      · exact h.orig x z hz (by omega) hg
    aux := fun x y hx hn => by
      rcases mem_subKey hx with ⟨-, hx⟩ | ⟨rfl, z, hz, rfl⟩
      · exact h'.aux x y hx hn
      · exact h'.aux x z hz hn
    cores := h'.cores
    pendOK := fun c hc => by
      rcases List.mem_append.1 hc with hc | hc
      · exact h'.pendOK c hc
      · simp only [List.mem_singleton] at hc
        subst hc
        refine ⟨LawfulTotDb.leaf_node d l, rfl, ?_⟩
        unfold conLen NodeCon.full NodeCon.cap
        simp only [LawfulTotDb.leaf_len, Nat.sub_zero]
    lew := fun x rd y hx hy => by
      rcases mem_subKey hy with ⟨-, hy⟩ | ⟨rfl, z, hz, rfl⟩
      · exact h.lew x rd y hx hy
      · exact Nat.le_trans (Nat.sub_le _ _) (h.lew x rd z hx hz)
    ident := fun t ht => by
      rw [h'.ident t ht, wsum_subKey (litV (TotDb.leaf d l).1 R t) h.keys hl hw, List.map_append, List.sum_append,
        List.map_singleton, List.sum_singleton, hv, h.litV_keep (LawfulTotDb.leaf_step d l).toDKeep]
      ring
    total := fun hs => by
      rw [← h'.total hs, wsum_subKey (fun _ => 1) h.keys hl hw, List.length_append, List.length_singleton]
      ring }

theorem litV_ref {l : Lit} {rd : ReformData} (hg : mapGet l R = some rd) (t : Asg) :
    litV d R t l = if rd.oidx < cnt d rd.root t then 1 else 0 := by unfold litV; rw [hg]

/-- The literal is an output and keeps a positive weight. -/
theorem RefOK.relaxRef (h : RefOK pb o d I R U off pw pend) {l : Lit} {w : Nat} {rd : ReformData} (hl : (l, w) ∈ I)
    (hw : pw < w) (hg : mapGet l R = some rd) :
    RefOK pb o d (subKey l pw I) R U off pw (pend ++ [NodeCon.single rd.root (rd.oidx + 1) 1]) := by
  obtain ⟨r1, r2, r3, r4, -⟩ := h.refs l rd hg
  exact {
    keys := by rw [subKey_keys]; exact h.keys
    rkeys := h.rkeys
    roots := h.roots
    refs := fun x rd' hx => by
      obtain ⟨h1, h2, h3, h4, y, h5, h6⟩ := h.refs x rd' hx
      by_cases hxl : x = l
      · subst hxl
        exact ⟨h1, h2, h3, h4, w - pw, by omega, mem_subKey_self hl⟩
      · exact ⟨h1, h2, h3, h4, y, h5, mem_subKey_of_ne h6 hxl⟩
    orig := fun x y hx hy hg' => by
      rcases mem_subKey hx with ⟨-, hx⟩ | ⟨rfl, z, hz, rfl⟩
      · exact h.orig x y hx hy hg'
      · exact h.orig x z hz (by omega) hg'
    aux := fun x y hx hn => by
      rcases mem_subKey hx with ⟨-, hx⟩ | ⟨rfl, z, hz, rfl⟩
      · exact h.aux x y hx hn
      · exact h.aux x z hz hn
    cores := h.cores
    pendOK := fun c hc => by
      rcases List.mem_append.1 hc with hc | hc
      · exact h.pendOK c hc
      · simp only [List.mem_singleton] at hc
        subst hc
        exact ⟨LawfulTotDb.inner_node _ _ r1, rfl, conLen_single r3⟩
    lew := fun x rd y hx hy => by
      rcases mem_subKey hy with ⟨-, hy⟩ | ⟨rfl, z, hz, rfl⟩
      · exact h.lew x rd y hx hy
      · exact Nat.le_trans (Nat.sub_le _ _) (h.lew x rd z hx hz)
    ident := fun t ht => by
      rw [h.ident t ht, wsum_subKey (litV d R t) h.keys hl (Nat.le_of_lt hw), List.map_append, List.sum_append,
        List.map_singleton, List.sum_singleton, conVal_single, litV_ref hg]
      ring
    total := fun hs => by
      rw [← h.total hs, wsum_subKey (fun _ => 1) h.keys hl (Nat.le_of_lt hw), List.length_append, List.length_singleton]
      ring }

theorem RefOK.root_unique (h : RefOK pb o d I R U off pw pend) {l l' : Lit} {rd rd' : ReformData}
    (hg : mapGet l R = some rd) (hg' : mapGet l' R = some rd') (he : rd'.root = rd.root) : l' = l := by
  have := nodup_mem_unique h.roots (mapGet_mem hg') (mapGet_mem hg) he
  simp only [Prod.mk.injEq] at this
  exact this.1

theorem litV_remove {l x : Lit} (hx : x ≠ l) (t : Asg) : litV d (mapRemove l R) t x = litV d R t x := by
  unfold litV; rw [mapGet_mapRemove, if_neg hx]

theorem RefOK.zero_after (h : RefOK pb o d I R U off pw pend) {l : Lit} (hl : (l, pw) ∈ I) {x : Lit} {y : Nat}
    (hx : (x, y) ∈ subKey l pw I) (hy : 0 < y) : x ≠ l ∧ (x, y) ∈ I := by
  rcases mem_subKey hx with h1 | ⟨rfl, z, hz, rfl⟩
  · exact h1
  · have := nodup_mem_unique h.keys hz hl rfl
    simp only [Prod.mk.injEq] at this
    omega

/-- The literal is the last output of its totalizer and is used up. -/
theorem RefOK.relaxLast (h : RefOK pb o d I R U off pw pend) {l : Lit} {rd : ReformData} (hl : (l, pw) ∈ I)
    (hg : mapGet l R = some rd) (hlast : TotDb.len d rd.root ≤ rd.oidx + 1) :
    RefOK pb o d (subKey l pw I) (mapRemove l R) U off pw (pend ++ [NodeCon.single rd.root (rd.oidx + 1) 1]) := by
  obtain ⟨r1, r2, r3, r4, -⟩ := h.refs l rd hg
  have hz := fun {x y} => h.zero_after (x := x) (y := y) hl
  exact {
    keys := by rw [subKey_keys]; exact h.keys
    rkeys := h.rkeys.sublist ((mapRemove_sublist l R).map _)
    roots := h.roots.sublist ((mapRemove_sublist l R).map _)
    refs := fun x rd' hx => by
      rw [mapGet_mapRemove] at hx
      split at hx
      · simp at hx
      · next hne =>
        obtain ⟨h1, h2, h3, h4, y, h5, h6⟩ := h.refs x rd' hx
        exact ⟨h1, h2, h3, h4, y, h5, mem_subKey_of_ne h6 hne⟩
    orig := fun x y hx hy hg' => by
      obtain ⟨h1, h2⟩ := hz hx hy
      rw [mapGet_mapRemove, if_neg h1] at hg'
      exact h.orig x y h2 hy hg'
    aux := fun x y hx hn => by
      have : ∃ z, (x, z) ∈ I := by
        rcases mem_subKey hx with ⟨-, hx⟩ | ⟨rfl, z, hz, rfl⟩
        · exact ⟨y, hx⟩
        · exact ⟨z, hz⟩
      obtain ⟨z, hz⟩ := this
      obtain ⟨root, i, h1, h2, h3⟩ := h.aux x z hz hn
      refine ⟨root, i, h1, h2, fun l' rd' hl' => ?_⟩
      rw [mapGet_mapRemove] at hl'
      split at hl'
      · simp at hl'
      · exact h3 l' rd' hl'
    cores := h.cores
    pendOK := fun c hc => by
      rcases List.mem_append.1 hc with hc | hc
      · exact h.pendOK c hc
      · simp only [List.mem_singleton] at hc
        subst hc
        exact ⟨LawfulTotDb.inner_node _ _ r1, rfl, conLen_single r3⟩
    lew := fun x rd' y hx hy => by
      rw [mapGet_mapRemove] at hx
      split at hx
      · simp at hx
      · next hne =>
        rcases mem_subKey hy with ⟨-, hy⟩ | ⟨rfl, z, hz, rfl⟩
        · exact h.lew x rd' y hx hy
        · exact absurd rfl hne
    ident := fun t ht => by
      have e1 : wsum (litV d (mapRemove l R) t) (subKey l pw I) = wsum (litV d R t) (subKey l pw I) :=
        wsum_congr fun x y hx hy => litV_remove (hz hx hy).1 t
      have e2 : cnt d rd.root t - (rd.oidx + 1) = 0 := by
        have := LawfulTotDb.cnt_le d rd.root t (LawfulTotDb.inner_node _ _ r1)
        omega
      rw [h.ident t ht, wsum_subKey (litV d R t) h.keys hl (Nat.le_refl _), List.map_append, List.sum_append,
        List.map_singleton, List.sum_singleton, conVal_single, litV_ref hg, e1, rsum_mapRemove _ h.rkeys hg, e2]
      ring
    total := fun hs => by
      have e2 : TotDb.len d rd.root - (rd.oidx + 1) = 0 := by omega
      rw [← h.total hs, wsum_subKey (fun _ => 1) h.keys hl (Nat.le_refl _), List.length_append, List.length_singleton,
        rsum_mapRemove _ h.rkeys hg, e2]
      ring }

theorem litV_append_new {new : Lit} {rd : ReformData} {x : Lit} (hx : x ≠ new) (t : Asg) :
    litV d (R ++ [(new, rd)]) t x = litV d R t x := by
  unfold litV
  rw [mapGet_append]
  simp only [mapGet, if_neg (Ne.symm hx), Option.or_none]

theorem litV_new {new : Lit} {rd : ReformData} (hn : mapGet new R = none) (t : Asg) :
    litV d (R ++ [(new, rd)]) t new = if rd.oidx < cnt d rd.root t then 1 else 0 := by
  unfold litV
  rw [mapGet_append, hn]
  simp [mapGet]

theorem step_arith (x k : Nat) : (if k + 1 < x then 1 else 0) + (x - (k + 1 + 1)) = x - (k + 1) := by
  split <;> omega

/-- The literal is used up and replaced by the next output of its totalizer. -/
theorem RefOK.relaxNext (h : RefOK pb o d I R U off pw pend) {l : Lit} {rd : ReformData} (hl : (l, pw) ∈ I)
    (hg : mapGet l R = some rd) (hnext : rd.oidx + 1 < TotDb.len d rd.root)
    (hob : ∀ l ∈ objLits o, l.var < pb.n0) (k : DStep d d') (hb : Base d' pb.n0) {new : Lit}
    (hout : IsOut d' rd.root (rd.oidx + 1) new) :
    RefOK pb o d' (subKey l pw I ++ [(new, rd.totWeight)])
      (mapRemove l R ++ [(new, { rd with oidx := rd.oidx + 1 })]) U off pw
      (pend ++ [NodeCon.single rd.root (rd.oidx + 1) 1]) ∧ new ∉ I.map Prod.fst := by
  obtain ⟨r1, r2, r3, r4, -⟩ := h.refs l rd hg
  have hz := fun {x y} => h.zero_after (x := x) (y := y) hl
  have h' := h.step k
  have hfresh : new ∉ I.map Prod.fst :=
    h.fresh hob k hb (k.inner _ r1) hout fun _ => ⟨l, rd, hg, rfl, Nat.lt_succ_self _⟩
  have hfreshR : new ∉ (mapRemove l R).map Prod.fst := fun hm =>
    hfresh (h.rkey_mem (((mapRemove_sublist l R).map Prod.fst).mem hm))
  have hfreshG : mapGet new (mapRemove l R) = none := mapGet_none.2 hfreshR
  have hnob : new ∉ objLits o := fun hm => by
    have := LawfulTotDb.out_base _ _ _ _ _ hb (k.inner _ r1) hout
    have := hob _ hm
    omega
  have hR' : ∀ x rd', mapGet x (mapRemove l R ++ [(new, { rd with oidx := rd.oidx + 1 })]) = some rd' →
      (x = new ∧ rd' = { rd with oidx := rd.oidx + 1 }) ∨ (x ≠ l ∧ x ≠ new ∧ mapGet x R = some rd') := by
    intro x rd' hx
    rw [mapGet_append, mapGet_mapRemove] at hx
    by_cases hxn : x = new
    · subst hxn
      rw [mapGet_mapRemove] at hfreshG
      rw [hfreshG] at hx
      simp only [Option.none_or, mapGet, if_true, Option.some.injEq] at hx
      exact .inl ⟨rfl, hx.symm⟩
    · simp only [mapGet, if_neg (Ne.symm hxn), Option.or_none] at hx
      split at hx
      · simp at hx
      · next hne => exact .inr ⟨hne, hxn, hx⟩
  refine ⟨?_, hfresh⟩
  exact {
    keys := by
      rw [List.map_append, subKey_keys]
      refine List.nodup_append.2 ⟨h.keys, by simp, ?_⟩
      intro a ha b hb he
      simp only [List.map_cons, List.map_nil, List.mem_singleton] at hb
      subst hb he
      exact hfresh ha
    rkeys := by
      rw [List.map_append]
      refine List.nodup_append.2 ⟨h.rkeys.sublist ((mapRemove_sublist l R).map _), by simp, ?_⟩
      intro a ha b hb he
      simp only [List.map_cons, List.map_nil, List.mem_singleton] at hb
      subst hb he
      exact hfreshR ha
    roots := by
      rw [List.map_append]
      refine List.nodup_append.2 ⟨h.roots.sublist ((mapRemove_sublist l R).map _), by simp, ?_⟩
      intro a ha b hb he
      simp only [List.map_cons, List.map_nil, List.mem_singleton] at hb
      subst hb he
      obtain ⟨⟨x, rd'⟩, hp, he⟩ := List.mem_map.1 ha
      have hx := mapGet_of_mem (h.rkeys.sublist ((mapRemove_sublist l R).map _)) hp
      rw [mapGet_mapRemove] at hx
      split at hx
      · simp at hx
      · next hne => exact hne (h.root_unique hg hx he)
    refs := fun x rd' hx => by
      rcases hR' x rd' hx with ⟨rfl, rfl⟩ | ⟨hne, hnn, hx⟩
      · exact ⟨k.inner _ r1, hout, by rw [k.len _ (LawfulTotDb.inner_node _ _ r1)]; exact hnext, r4, rd.totWeight, r4,
          by simp⟩
      · obtain ⟨h1, h2, h3, h4, y, h5, h6⟩ := h'.refs x rd' hx
        exact ⟨h1, h2, h3, h4, y, h5, List.mem_append.2 (.inl (mem_subKey_of_ne h6 hne))⟩
    orig := fun x y hx hy hg' => by
      rw [mapGet_append, Option.or_eq_none_iff] at hg'
      rcases List.mem_append.1 hx with hx | hx
      · obtain ⟨h1, h2⟩ := hz hx hy
        rw [mapGet_mapRemove, if_neg h1] at hg'
        exact h.orig x y h2 hy hg'.1
      · simp only [List.mem_singleton, Prod.mk.injEq] at hx
        obtain ⟨rfl, rfl⟩ := hx
        simp [mapGet] at hg'
    aux := fun x y hx hn => by
      rcases List.mem_append.1 hx with hx | hx
      · have : ∃ z, (x, z) ∈ I := by
          rcases mem_subKey hx with ⟨-, hx⟩ | ⟨rfl, z, hz, rfl⟩
          · exact ⟨y, hx⟩
          · exact ⟨z, hz⟩
        obtain ⟨z, hz⟩ := this
        obtain ⟨root, i, h1, h2, h3⟩ := h'.aux x z hz hn
        refine ⟨root, i, h1, h2, fun l' rd' hl' he => ?_⟩
        rcases hR' l' rd' hl' with ⟨rfl, rfl⟩ | ⟨-, -, hl'⟩
        · exact Nat.le_succ_of_le (h3 l rd hg he)
        · exact h3 l' rd' hl' he
      · simp only [List.mem_singleton, Prod.mk.injEq] at hx
        obtain ⟨rfl, rfl⟩ := hx
        refine ⟨rd.root, rd.oidx + 1, k.inner _ r1, hout, fun l' rd' hl' he => ?_⟩
        rcases hR' l' rd' hl' with ⟨rfl, rfl⟩ | ⟨hne, -, hl'⟩
        · exact Nat.le_refl _
        · exact absurd (h.root_unique hg hl' he) hne
    cores := h'.cores
    pendOK := fun c hc => by
      rcases List.mem_append.1 hc with hc | hc
      · exact h'.pendOK c hc
      · simp only [List.mem_singleton] at hc
        subst hc
        have hnode := LawfulTotDb.inner_node _ _ r1
        exact ⟨k.node _ hnode, rfl, conLen_single (by rw [k.len _ hnode]; exact r3)⟩
    lew := fun x rd' y hx hy => by
      rcases List.mem_append.1 hy with hy | hy
      · have hxI : x ∈ I.map Prod.fst := by
          rw [← subKey_keys l pw I]
          exact List.mem_map.2 ⟨_, hy, rfl⟩
        rcases hR' x rd' hx with ⟨rfl, rfl⟩ | ⟨hne, hnn, hx⟩
        · exact absurd hxI hfresh
        · rcases mem_subKey hy with ⟨-, hy⟩ | ⟨rfl, z, hz, rfl⟩
          · exact h.lew x rd' y hx hy
          · exact absurd rfl hne
      · simp only [List.mem_singleton, Prod.mk.injEq] at hy
        obtain ⟨rfl, rfl⟩ := hy
        rcases hR' _ rd' hx with ⟨-, rfl⟩ | ⟨-, hnn, -⟩
        · exact Nat.le_refl _
        · exact absurd rfl hnn
    ident := fun t ht => by
      have hnode := LawfulTotDb.inner_node _ _ r1
      have e1 : wsum (litV d' (mapRemove l R ++ [(new, { rd with oidx := rd.oidx + 1 })]) t) (subKey l pw I) =
          wsum (litV d' R t) (subKey l pw I) := by
        refine wsum_congr fun x y hx hy => ?_
        obtain ⟨h1, h2⟩ := hz hx hy
        rw [litV_append_new, litV_remove h1]
        rintro rfl
        exact hfresh (List.mem_map.2 ⟨_, h2, rfl⟩)
      have e3 := step_arith (cnt d' rd.root t) rd.oidx
      rw [h'.ident t ht, wsum_subKey (litV d' R t) h.keys hl (Nat.le_refl _), List.map_append, List.sum_append,
        List.map_singleton, List.sum_singleton, conVal_single, litV_ref hg, wsum_append, e1, wsum_single, litV_new hfreshG,
        rsum_mapRemove _ h.rkeys hg, rsum_append, rsum_single]
      simp only
      rw [← e3]
      ring
    total := fun hs => by
      have hnode := LawfulTotDb.inner_node _ _ r1
      have e2 : TotDb.len d' rd.root - (rd.oidx + 1) = 1 + (TotDb.len d' rd.root - (rd.oidx + 1 + 1)) := by
        rw [k.len _ hnode]; omega
      rw [← h'.total hs, wsum_subKey (fun _ => 1) h.keys hl (Nat.le_refl _), wsum_append, wsum_single,
        List.length_append, List.length_singleton, rsum_mapRemove _ h.rkeys hg, rsum_append, rsum_single]
      simp only
      rw [e2]
      ring }

/-! ## Finishing a core -/

/-- A core of at least two literals is stored. -/
theorem RefOK.store (h : RefOK pb o d I R U off pw pend) (hp : 2 ≤ pend.length) (hw : 0 < pw)
    (hs : ∀ t, pb.Sol t → 1 ≤ (pend.map (conVal d t)).sum) {off' pw' : Nat} (ho : (∃ t, pb.Sol t) → off' = off + pw) :
    RefOK pb o d I R (U ++ [(pend, pw)]) off' pw' [] :=
  { h with
    cores := fun u hu => by
      rcases List.mem_append.1 hu with hu | hu
      · exact h.cores u hu
      · simp only [List.mem_singleton] at hu
        subst hu
        exact ⟨hp, hw, h.pendOK, hs⟩
    pendOK := by simp
    ident := fun t ht => by
      rw [h.ident t ht, ho ⟨t, ht⟩, usum_append]
      simp only [usum, List.map_cons, List.map_nil, List.sum_cons, List.sum_nil]
      obtain ⟨x, hx⟩ := Nat.exists_eq_add_of_le (hs t ht)
      rw [hx]
      have : 1 + x - 1 = x := by omega
      rw [this]
      ring
    total := fun hsat => by
      rw [← h.total hsat, ho hsat, usum_append]
      simp only [usum, List.map_cons, List.map_nil, List.sum_cons, List.sum_nil, List.length_nil]
      obtain ⟨x, hx⟩ := Nat.exists_eq_add_of_le hp
      rw [hx]
      have : 2 + x - 1 = 1 + x := by omega
      rw [this]
      ring }

theorem cap_le_of_len {c : NodeCon} (hc : ConOK d c) (t : Asg) : conVal d t c ≤ 1 := by
  have h1 := LawfulTotDb.cnt_le d c.id t hc.node
  have h2 := hc.len
  unfold conVal
  rw [hc.weight, Nat.one_mul]
  unfold conLen at h2
  unfold NodeCon.cap at *
  split at * <;> omega

/-- A core of one literal only adds to the offset. -/
theorem RefOK.unit (h : RefOK pb o d I R U off pw pend) (hp : pend.length ≤ 1)
    (hs : ∀ t, pb.Sol t → 1 ≤ (pend.map (conVal d t)).sum) {off' pw' : Nat} (ho : (∃ t, pb.Sol t) → off' = off + pw) :
    RefOK pb o d I R U off' pw' [] := by
  have hone : ∀ t, pb.Sol t → (pend.map (conVal d t)).sum = 1 ∧ pend.length = 1 := by
    intro t ht
    match pend, hp, h.pendOK, hs t ht with
    | [], _, _, h1 => simp at h1
    | [c], _, hc, h1 =>
      have := cap_le_of_len (hc c (by simp)) t
      simp only [List.map_cons, List.map_nil, List.sum_cons, List.sum_nil, Nat.add_zero] at h1 ⊢
      exact ⟨Nat.le_antisymm this h1, rfl⟩
  exact { h with
    pendOK := by simp
    ident := fun t ht => by
      rw [h.ident t ht, ho ⟨t, ht⟩, (hone t ht).1]
      simp only [List.map_nil, List.sum_nil]
      ring
    total := fun hsat => by
      rw [← h.total hsat, ho hsat, (hone _ hsat.choose_spec).2]
      simp only [List.length_nil]
      ring }

/-! ## Reformulating a core -/

theorem sum_conLen {cons : List NodeCon} (h : ∀ c ∈ cons, ConOK d c) : (cons.map (conLen d)).sum = cons.length := by
  induction cons with
  | nil => rfl
  | cons c cs ih =>
    simp only [List.map_cons, List.sum_cons, List.length_cons]
    rw [(h c (by simp)).len, ih fun c hc => h c (by simp [hc])]
    omega

/-- The core is replaced by the outputs of a new totalizer from number `b` on. -/
theorem RefOK.reform (h : RefOK pb o d I R ((cons, w) :: U) off pw [])
    (hob : ∀ l ∈ objLits o, l.var < pb.n0) {root b : Nat} (k : DStep d d') (hb : Base d' pb.n0)
    (hin : Inner d' root) (hnew : ¬ Node d root)
    (hcnt : ∀ t, cnt d' root t = (cons.map (conVal d t)).sum) (hlen : TotDb.len d' root = cons.length)
    (h1 : 1 ≤ b) (hbl : b < TotDb.len d' root) (hle : ∀ t, pb.Sol t → b ≤ cnt d' root t) {olit : Lit}
    (hout : IsOut d' root b olit) {off' : Nat} (ho : (∃ t, pb.Sol t) → off' = off + (b - 1) * w) :
    RefOK pb o d' (I ++ [(olit, w)]) (R ++ [(olit, ⟨root, b, w⟩)]) U off' pw [] ∧ olit ∉ I.map Prod.fst := by
  have h' := h.step k
  have hfresh : olit ∉ I.map Prod.fst :=
    h.fresh hob k hb hin hout fun hi => absurd (LawfulTotDb.inner_node _ _ hi) hnew
  have hfreshR : olit ∉ R.map Prod.fst := fun hm => hfresh (h.rkey_mem hm)
  have hfreshG : mapGet olit R = none := mapGet_none.2 hfreshR
  obtain ⟨c1, c2, c3, c4⟩ := h.cores (cons, w) (by simp)
  simp only at c1 c2 c3 c4
  have hR' : ∀ x rd', mapGet x (R ++ [(olit, ⟨root, b, w⟩)]) = some rd' →
      (x = olit ∧ rd' = ⟨root, b, w⟩) ∨ (x ≠ olit ∧ mapGet x R = some rd') := by
    intro x rd' hx
    rw [mapGet_append] at hx
    by_cases hxn : x = olit
    · subst hxn
      rw [hfreshG] at hx
      simp only [Option.none_or, mapGet, if_true, Option.some.injEq] at hx
      exact .inl ⟨rfl, hx.symm⟩
    · simp only [mapGet, if_neg (Ne.symm hxn), Option.or_none] at hx
      exact .inr ⟨hxn, hx⟩
  refine ⟨?_, hfresh⟩
  exact {
    keys := by
      rw [List.map_append]
      refine List.nodup_append.2 ⟨h.keys, by simp, ?_⟩
      intro a ha b hb he
      simp only [List.map_cons, List.map_nil, List.mem_singleton] at hb
      subst hb he
      exact hfresh ha
    rkeys := by
      rw [List.map_append]
      refine List.nodup_append.2 ⟨h.rkeys, by simp, ?_⟩
      intro a ha b hb he
      simp only [List.map_cons, List.map_nil, List.mem_singleton] at hb
      subst hb he
      exact hfreshR ha
    roots := by
      rw [List.map_append]
      refine List.nodup_append.2 ⟨h.roots, by simp, ?_⟩
      intro a ha b hb he
      simp only [List.map_cons, List.map_nil, List.mem_singleton] at hb
      subst hb he
      obtain ⟨⟨x, rd'⟩, hp, he⟩ := List.mem_map.1 ha
      simp only at he
      have := h.node hp
      simp only [he] at this
      exact hnew this
    refs := fun x rd' hx => by
      rcases hR' x rd' hx with ⟨rfl, rfl⟩ | ⟨-, hx⟩
      · exact ⟨hin, hout, hbl, c2, w, c2, by simp⟩
      · obtain ⟨h1, h2, h3, h4, y, h5, h6⟩ := h'.refs x rd' hx
        exact ⟨h1, h2, h3, h4, y, h5, List.mem_append.2 (.inl h6)⟩
    orig := fun x y hx hy hg' => by
      rw [mapGet_append, Option.or_eq_none_iff] at hg'
      rcases List.mem_append.1 hx with hx | hx
      · exact h.orig x y hx hy hg'.1
      · simp only [List.mem_singleton, Prod.mk.injEq] at hx
        obtain ⟨rfl, rfl⟩ := hx
        simp [mapGet] at hg'
    aux := fun x y hx hn => by
      rcases List.mem_append.1 hx with hx | hx
      · obtain ⟨root', i, g1, g2, g3⟩ := h.aux x y hx hn
        refine ⟨root', i, k.inner _ g1, k.out _ _ _ g2, fun l' rd' hl' he => ?_⟩
        rcases hR' l' rd' hl' with ⟨rfl, rfl⟩ | ⟨-, hl'⟩
        · simp only at he
          subst he
          exact absurd (LawfulTotDb.inner_node _ _ g1) hnew
        · exact g3 l' rd' hl' he
      · simp only [List.mem_singleton, Prod.mk.injEq] at hx
        obtain ⟨rfl, rfl⟩ := hx
        refine ⟨root, b, hin, hout, fun l' rd' hl' he => ?_⟩
        rcases hR' l' rd' hl' with ⟨rfl, rfl⟩ | ⟨-, hl'⟩
        · exact Nat.le_refl _
        · exfalso
          have := h.node (mapGet_mem hl')
          simp only [he] at this
          exact hnew this
    cores := fun u hu => h'.cores u (by simp [hu])
    pendOK := by simp
    lew := fun x rd' y hx hy => by
      rcases List.mem_append.1 hy with hI | hy
      · rcases hR' x rd' hx with ⟨rfl, rfl⟩ | ⟨-, hx⟩
        · exact absurd (List.mem_map.2 ⟨(_, y), hI, rfl⟩) hfresh
        · exact h.lew x rd' y hx hI
      · simp only [List.mem_singleton, Prod.mk.injEq] at hy
        obtain ⟨rfl, rfl⟩ := hy
        rcases hR' _ rd' hx with ⟨-, rfl⟩ | ⟨hnn, -⟩
        · exact Nat.le_refl _
        · exact absurd rfl hnn
    ident := fun t ht => by
      have e1 : wsum (litV d' (R ++ [(olit, ⟨root, b, w⟩)]) t) I = wsum (litV d' R t) I := by
        refine wsum_congr fun x y hx hy => litV_append_new ?_ t
        rintro rfl
        exact hfresh (List.mem_map.2 ⟨_, hx, rfl⟩)
      have e2 : (cons.map (conVal d' t)).sum = cnt d' root t := by rw [sum_conVal_keep k.toDKeep c3, hcnt]
      have e3 : cnt d' root t - 1 = (b - 1) + ((if b < cnt d' root t then 1 else 0) + (cnt d' root t - (b + 1))) := by
        have := hle t ht
        split <;> omega
      rw [h'.ident t ht, ho ⟨t, ht⟩, usum_cons, wsum_append, e1, wsum_single, litV_new hfreshG, rsum_append, rsum_single]
      simp only [e2]
      rw [e3]
      ring
    total := fun hs => by
      have e3 : cons.length - 1 = (b - 1) + (1 + (TotDb.len d' root - (b + 1))) := by omega
      rw [← h'.total hs, ho hs, usum_cons, wsum_append, wsum_single, rsum_append, rsum_single]
      simp only
      rw [e3]
      ring }

/-- All inputs of the core are true, there is nothing left of it. -/
theorem RefOK.reformAll (h : RefOK pb o d I R ((cons, w) :: U) off pw [])
    {root b : Nat} (k : DStep d d')
    (hcnt : ∀ t, cnt d' root t = (cons.map (conVal d t)).sum) (hlen : TotDb.len d' root = cons.length)
    (hin : Inner d' root) (hbl : TotDb.len d' root = b) (hle : ∀ t, pb.Sol t → b ≤ cnt d' root t)
    {off' : Nat} (ho : (∃ t, pb.Sol t) → off' = off + (b - 1) * w) : RefOK pb o d' I R U off' pw [] := by
  have h' := h.step k
  obtain ⟨c1, c2, c3, c4⟩ := h.cores (cons, w) (by simp)
  simp only at c1 c2 c3 c4
  exact { h' with
    cores := fun u hu => h'.cores u (by simp [hu])
    ident := fun t ht => by
      have e2 : (cons.map (conVal d' t)).sum = b := by
        rw [sum_conVal_keep k.toDKeep c3, ← hcnt]
        have := LawfulTotDb.cnt_le d' root t (LawfulTotDb.inner_node _ _ hin)
        have := hle t ht
        omega
      rw [h'.ident t ht, ho ⟨t, ht⟩, usum_cons]
      simp only [e2]
      ring
    total := fun hs => by
      rw [← h'.total hs, ho hs, usum_cons]
      simp only
      rw [← hlen, hbl]
      ring }

end Scuttle
