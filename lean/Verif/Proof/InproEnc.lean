import Verif.Proof.Inprocess

/-!
# Encodings of the soft clauses that MaxPre returns
-/

set_option linter.unusedSectionVars false

namespace Scuttle

open Spec

variable {P C D : Type} [UbEnc P] [UbEnc C] [LawfulUbEnc P] [LawfulUbEnc C] [TotDb D] [LawfulTotDb D]
variable {env : Env} {s s' : Slv P C} {E : Stop → Slv P C → Prop}

open TotSem (Node Inner cnt Sound Exact Below Inputs Base IsOut)

/-! ## Runs of outputs in use -/

theorem runOf_after {i a len : Nat} {data : List Bool} {r : Option Nat × Option Nat} (ha : a < i)
    (h : runOf i data (some a) (some len) = some r) :
    (∀ j : Nat, data[j]? ≠ some true) ∧ r = (some a, some (if data = [] then len else i + data.length - 1 - a)) := by
  induction data generalizing i len with
  | nil =>
    simp only [runOf, Option.some.injEq] at h
    subst h
    simp
  | cons x data ih =>
    unfold runOf at h
    have h1 : ¬ i < a := by omega
    cases x with
    | true => simp [h1] at h
    | false =>
      simp [ha] at h
      obtain ⟨h2, h3⟩ := ih (by omega) h
      refine ⟨fun j => ?_, ?_⟩
      · cases j with
        | zero => simp
        | succ j => simpa using h2 j
      · rw [h3]
        simp only [List.length_cons, reduceCtorEq, if_false]
        split
        · next he => subst he; simp
        · congr 2; omega

theorem runOf_in {i a : Nat} {data : List Bool} {r : Option Nat × Option Nat} (ha : a < i)
    (h : runOf i data (some a) none = some r) :
    ∃ b, i ≤ b ∧ b ≤ i + data.length ∧ (∀ j : Nat, data[j]? = some true ↔ i + j < b) ∧
      r = (some a, if b = i + data.length then none else some (i + data.length - 1 - a)) := by
  induction data generalizing i with
  | nil =>
    simp only [runOf, Option.some.injEq] at h
    subst h
    exact ⟨i, by simp, by simp, by simp; , by simp⟩
  | cons x data ih =>
    unfold runOf at h
    have h1 : ¬ i < a := by omega
    cases x with
    | true =>
      simp [h1] at h
      obtain ⟨b, h2, h3, h4, h5⟩ := ih (by omega) h
      refine ⟨b, by omega, by simp only [List.length_cons]; omega, fun j => ?_, ?_⟩
      · cases j with
        | zero => simp; omega
        | succ j => rw [List.getElem?_cons_succ, h4]; omega
      · rw [h5]
        simp only [List.length_cons]
        congr 1
        have e : i + 1 + data.length = i + (data.length + 1) := by omega
        rw [e]
    | false =>
      simp [ha] at h
      obtain ⟨h2, h3⟩ := runOf_after (by omega) h
      refine ⟨i, by omega, by omega, fun j => ?_, ?_⟩
      · cases j with
        | zero => simp
        | succ j =>
          have := h2 j
          simp only [List.getElem?_cons_succ]
          constructor
          · intro h'; exact absurd h' this
          · intro h'; omega
      · rw [h3]
        simp only [List.length_cons]
        rw [if_neg (show ¬ i = i + (data.length + 1) by omega)]
        congr 2
        split
        · next he => subst he; simp
        · omega

theorem runOf_before {i : Nat} {data : List Bool} {r : Option Nat × Option Nat} (h : runOf i data none none = some r)
    (hex : ∃ j : Nat, data[j]? = some true) :
    ∃ a b, i ≤ a ∧ a < b ∧ b ≤ i + data.length ∧ (∀ j : Nat, data[j]? = some true ↔ a ≤ i + j ∧ i + j < b) ∧
      r = (some a, if b = i + data.length then none else some (i + data.length - 1 - a)) := by
  induction data generalizing i with
  | nil => simp at hex
  | cons x data ih =>
    unfold runOf at h
    cases x with
    | true =>
      simp at h
      obtain ⟨b, h2, h3, h4, h5⟩ := runOf_in (by omega) h
      refine ⟨i, b, by omega, by omega, by simp only [List.length_cons]; omega, fun j => ?_, ?_⟩
      · cases j with
        | zero => simp; omega
        | succ j => rw [List.getElem?_cons_succ, h4]; omega
      · rw [h5]
        have e : i + 1 + data.length = i + (true :: data).length := by simp only [List.length_cons]; omega
        rw [e]
    | false =>
      simp at h
      obtain ⟨j, hj⟩ := hex
      have hj' : ∃ j : Nat, data[j]? = some true := by
        cases j with
        | zero => simp at hj
        | succ j => exact ⟨j, by simpa using hj⟩
      obtain ⟨a, b, h1, h2, h3, h4, h5⟩ := ih h hj'
      refine ⟨a, b, by omega, by omega, by simp only [List.length_cons]; omega, fun j => ?_, ?_⟩
      · cases j with
        | zero => simp; omega
        | succ j => rw [List.getElem?_cons_succ, h4]; omega
      · rw [h5]
        have e : i + 1 + data.length = i + (false :: data).length := by simp only [List.length_cons]; omega
        rw [e]

/-- Outputs in use form a run `a, …, b - 1`. -/
theorem runOf_spec {data : List Bool} {r : Option Nat × Option Nat} (h : runOf 0 data none none = some r)
    (hex : ∃ j : Nat, data[j]? = some true) :
    ∃ a b, a < b ∧ b ≤ data.length ∧ (∀ j : Nat, data[j]? = some true ↔ a ≤ j ∧ j < b) ∧
      r = (some a, if b = data.length then none else some (data.length - 1 - a)) := by
  obtain ⟨a, b, -, h2, h3, h4, h5⟩ := runOf_before h hex
  simp only [Nat.zero_add] at *
  exact ⟨a, b, h2, h3, h4, h5⟩

/-! ## Sums over outputs in use -/

/-- Sum over the outputs in use, from index `i` on. -/
def tsum (f : Nat → Nat) : Nat → List Bool → Nat
  | _, [] => 0
  | i, b :: bs => (if b then f i else 0) + tsum f (i + 1) bs

theorem tsum_replicate (f : Nat → Nat) (i n : Nat) : tsum f i (List.replicate n false) = 0 := by
  induction n generalizing i with
  | zero => rfl
  | succ n ih => simp [List.replicate_succ, tsum, ih]

theorem tsum_set (f : Nat → Nat) (i j : Nat) (data : List Bool) (h : data[j]? = some false) :
    tsum f i (data.set j true) = tsum f i data + f (i + j) := by
  induction data generalizing i j with
  | nil => simp at h
  | cons b data ih =>
    cases j with
    | zero =>
      simp only [List.getElem?_cons_zero, Option.some.injEq] at h
      subst h
      simp [tsum]
      omega
    | succ j =>
      simp only [List.set_cons_succ, tsum]
      rw [ih (i + 1) j (by simpa using h)]
      have : i + 1 + j = i + (j + 1) := by omega
      rw [this]
      omega

theorem tsum_run (f : Nat → Nat) (i a b : Nat) (data : List Bool) (hb : b ≤ i + data.length)
    (h : ∀ j : Nat, data[j]? = some true ↔ a ≤ i + j ∧ i + j < b) :
    tsum f i data = ((List.range' (max i a) (b - max i a)).map f).sum := by
  induction data generalizing i with
  | nil =>
    have : b - max i a = 0 := by simp at hb; omega
    rw [this]
    rfl
  | cons x data ih =>
    simp only [List.length_cons] at hb
    have ih' := ih (i + 1) (by omega) fun j => by
      have := h (j + 1)
      rw [List.getElem?_cons_succ] at this
      rw [this]
      omega
    have h0 := h 0
    simp only [List.getElem?_cons_zero, Option.some.injEq, Nat.add_zero] at h0
    unfold tsum
    rw [ih']
    cases x with
    | true =>
      have h1 := h0.1 rfl
      have e1 : max i a = i := by omega
      have e2 : max (i + 1) a = i + 1 := by omega
      have e3 : b - i = b - (i + 1) + 1 := by omega
      rw [e1, e2, e3, List.range'_succ]
      simp
    | false =>
      have h1 : ¬ (a ≤ i ∧ i < b) := fun h' => by simpa using h0.2 h'
      simp only [Bool.false_eq_true, if_false, Nat.zero_add]
      by_cases hai : a ≤ i
      · have e1 : b - max i a = 0 := by omega
        have e2 : b - max (i + 1) a = 0 := by omega
        rw [e1, e2]
        rfl
      · have e1 : max i a = a := by omega
        have e2 : max (i + 1) a = a := by omega
        rw [e1, e2]

/-! ## Reading the soft clauses -/

variable [InproDb D] [LawfulInproDb D]
variable {n0 : Nat} {d : D} {I K : List (Lit × Nat)} {R : List (Lit × ReformData)} {c : Coll D}

/-- Sum over the entries of a map. -/
def msum {α β : Type} (f : α × β → Nat) (m : List (α × β)) : Nat := (m.map f).sum

theorem msum_insert {α β : Type} [DecidableEq α] (f : α × β → Nat) (k : α) (v v' : β) (m : List (α × β))
    (h : mapGet k m = some v) : msum f (mapInsert k v' m) + f (k, v) = msum f m + f (k, v') := by
  induction m with
  | nil => simp [mapGet] at h
  | cons p m ih =>
    obtain ⟨a, b⟩ := p
    unfold mapGet at h
    unfold mapInsert
    split at h
    · next he =>
      subst he
      simp only [Option.some.injEq] at h
      subst h
      simp only [if_true, msum, List.map_cons, List.sum_cons]
      omega
    · next he =>
      have := ih h
      simp only [if_neg he, msum, List.map_cons, List.sum_cons] at this ⊢
      omega

theorem msum_insert_new {α β : Type} [DecidableEq α] (f : α × β → Nat) (k : α) (v : β) (m : List (α × β))
    (h : mapGet k m = none) : msum f (mapInsert k v m) = msum f m + f (k, v) := by
  rw [mapInsert_new _ _ _ (mapGet_none.1 h)]
  simp [msum]

/-- An output that is counted with the weight of its totalizer. -/
def FullAt (c : Coll D) (L : List (Lit × Nat)) (root i : Nat) : Prop :=
  ∃ l w rd, (l, w) ∈ L ∧ mapGet l c.outs = some rd ∧ rd.root = root ∧ rd.oidx = i ∧ rd.totWeight ≤ w

/-- Where a connection that is not for a whole totalizer comes from. -/
def ConFrom (c : Coll D) (L : List (Lit × Nat)) (x : NodeCon) : Prop :=
  x.limit = none ∨ ∃ l w rd, (l, w) ∈ L ∧ mapGet l c.outs = some rd ∧ x = NodeCon.single rd.root (rd.oidx + 1) w

/-- What is known after the soft clauses for `L` have been read. -/
structure SInv (n0 : Nat) (c : Coll D) (L : List (Lit × Nat)) (st : SoftSt D) : Prop where
  step : MStep n0 c.db st.db
  keys : (st.tots.map Prod.fst).Nodup
  cons : ∀ x ∈ st.cons, ConFine st.db st.maxLeaf x ∧ ConFrom c L x
  tots : ∀ root data w, mapGet root st.tots = some (data, w) → data.length = TotDb.len c.db root ∧ w ≤ st.maxLeaf ∧
    (∃ l rd, mapGet l c.outs = some rd ∧ rd.root = root ∧ rd.totWeight = w) ∧ (∃ j : Nat, data[j]? = some true) ∧
    ∀ i, data[i]? = some true ↔ FullAt c L root i
  full : ∀ root i, FullAt c L root i → ∃ v, mapGet root st.tots = some v
  val : ∀ t, (st.cons.map (conVal st.db t)).sum +
    msum (fun p => p.2.2 * tsum (fun i => if i < cnt c.db p.1 t then 1 else 0) 0 p.2.1) st.tots = wsum (litV c.db c.outs t) L
  len : (st.cons.map fun x => x.weight * conLen st.db x).sum + msum (fun p => p.2.2 * tsum (fun _ => 1) 0 p.2.1) st.tots =
    wsum (fun _ => 1) L

theorem SInv.init (n0 : Nat) (c : Coll D) : SInv n0 c [] ⟨[], [], c.db, 0⟩ := by
  refine ⟨MStep.refl _ _, List.nodup_nil, by simp, by simp [mapGet], ?_, fun t => rfl, rfl⟩
  rintro root i ⟨l, w, rd, h, -⟩
  simp at h

theorem FullAt.mono {L : List (Lit × Nat)} {root i : Nat} (p : Lit × Nat) (h : FullAt c L root i) : FullAt c (L ++ [p]) root i := by
  obtain ⟨l, w, rd, h1, h2⟩ := h
  exact ⟨l, w, rd, by simp [h1], h2⟩

theorem ConFrom.mono {L : List (Lit × Nat)} {x : NodeCon} (p : Lit × Nat) (h : ConFrom c L x) : ConFrom c (L ++ [p]) x := by
  rcases h with h | ⟨l, w, rd, h1, h2⟩
  · exact .inl h
  · exact .inr ⟨l, w, rd, by simp [h1], h2⟩

theorem ConFine.mono {w w' : Nat} {x : NodeCon} (h : ConFine d w x) (hw : w ≤ w') : ConFine d w' x :=
  ⟨h.node, h.pos, h.len, Nat.le_trans h.max hw⟩

theorem fullAt_snoc {L : List (Lit × Nat)} {l : Lit} {w root i : Nat} : FullAt c (L ++ [(l, w)]) root i ↔
    FullAt c L root i ∨ ∃ rd, mapGet l c.outs = some rd ∧ rd.root = root ∧ rd.oidx = i ∧ rd.totWeight ≤ w := by
  constructor
  · rintro ⟨l', w', rd, h1, h2⟩
    rcases List.mem_append.1 h1 with h1 | h1
    · exact .inl ⟨l', w', rd, h1, h2⟩
    · simp only [List.mem_singleton, Prod.mk.injEq] at h1
      obtain ⟨rfl, rfl⟩ := h1
      exact .inr ⟨rd, h2⟩
  · rintro (h | ⟨rd, h⟩)
    · exact h.mono _
    · exact ⟨l, w, rd, by simp, h⟩

theorem wp_readSoft {Q : SoftSt D → Slv P C → Prop} (hk : Items n0 d I R c K) {L : List (Lit × Nat)} {st : SoftSt D}
    (h : SInv n0 c L st) {l : Lit} {w : Nat} (hL : ∀ p ∈ L, p ∈ K) (hl : (l, w) ∈ K) (hnew : l ∉ L.map Prod.fst)
    (hQ : ∀ st', SInv n0 c (L ++ [(l, w)]) st' → Q st' s) : wp env (readSoft c.outs st (softOf (l, w))) Q E s := by
  unfold readSoft softOf
  simp only
  rw [wp_bind]
  refine wp_dbg (by simp) ?_
  rw [wp_bind]
  simp only [List.head?_cons]
  rw [wp_unwrap_some, Lit.not_not]
  have hw0 := hk.pos l w hl
  cases hg : mapGet l c.outs with
  | none =>
    simp only
    rw [wp_pure]
    apply hQ
    have hv : l.var < n0 := by
      rcases hk.item l w hl with ⟨-, h1⟩ | ⟨rd, h1, -⟩
      · exact h1
      · rw [hg] at h1; simp at h1
    have hst := LawfulTotDb.leaf_step st.db l
    have hcnt := LawfulTotDb.leaf_cnt st.db l
    have hlen := LawfulTotDb.leaf_len st.db l
    have hnode := LawfulTotDb.leaf_node st.db l
    have hnf : ∀ root i, FullAt c (L ++ [(l, w)]) root i ↔ FullAt c L root i := by
      intro root i
      rw [fullAt_snoc, hg]
      simp
    refine ⟨h.step.trans ⟨hst.toDKeep, LawfulTotDb.leaf_sound _ l, LawfulTotDb.leaf_exact _ l,
      fun n hn hb => LawfulTotDb.leaf_below _ l n hb (Nat.lt_of_lt_of_le hv hn)⟩, h.keys, ?_, ?_, ?_, ?_, ?_⟩
    · intro x hx
      rcases List.mem_append.1 hx with hx | hx
      · obtain ⟨h1, h2⟩ := h.cons x hx
        exact ⟨(h1.keep hst.toDKeep).mono (by simp only; omega), h2.mono _⟩
      · simp only [List.mem_singleton] at hx
        subst hx
        refine ⟨⟨hnode, hw0, ?_, by simp only [NodeCon.weighted]; omega⟩, .inl rfl⟩
        simp [conLen, NodeCon.weighted, NodeCon.cap, hlen]
    · intro root data w' hr
      obtain ⟨h1, h2, h3, h4, h5⟩ := h.tots root data w' hr
      exact ⟨h1, by simp only; omega, h3, h4, fun i => by rw [hnf]; exact h5 i⟩
    · intro root i hf
      exact h.full root i ((hnf root i).1 hf)
    · intro t
      have e1 : st.cons.map (conVal (TotDb.leaf st.db l).1 t) = st.cons.map (conVal st.db t) :=
        List.map_congr_left fun x hx => conVal_keep hst.toDKeep (h.cons x hx).1.node t
      simp only [List.map_append, List.sum_append, e1, wsum_append, ← h.val t, List.map_singleton, List.sum_singleton, wsum_single]
      simp only [conVal, NodeCon.weighted, NodeCon.cap, hcnt, litV, hg, Nat.sub_zero]
      omega
    · have e1 : (st.cons.map fun x => x.weight * conLen (TotDb.leaf st.db l).1 x) = st.cons.map fun x => x.weight * conLen st.db x :=
        List.map_congr_left fun x hx => by rw [conLen_keep hst.toDKeep (h.cons x hx).1.node]
      simp only [List.map_append, List.sum_append, e1, wsum_append, ← h.len, List.map_singleton, List.sum_singleton, wsum_single]
      simp only [conLen, NodeCon.weighted, NodeCon.cap, hlen, Nat.sub_zero]
      omega
  | some rd =>
    obtain ⟨i1, i2, i3⟩ := hk.outs l rd hg
    have hnode := LawfulTotDb.inner_node _ _ i1
    have hwle : w ≤ rd.totWeight := by
      rcases hk.item l w hl with ⟨h1, -⟩ | ⟨rd', h1, -, h2⟩
      · rw [hg] at h1; simp at h1
      · rw [hg] at h1
        simp only [Option.some.injEq] at h1
        subst h1
        exact h2
    simp only
    split
    · next hlt =>
      rw [wp_pure]
      apply hQ
      have hnf : ∀ root i, FullAt c (L ++ [(l, w)]) root i ↔ FullAt c L root i := by
        intro root i
        rw [fullAt_snoc, hg]
        simp only [Option.some.injEq]
        constructor
        · rintro (h | ⟨rd', rfl, -, -, h4⟩)
          · exact h
          · omega
        · exact .inl
      have hcl : conLen st.db (NodeCon.single rd.root (rd.oidx + 1) w) = 1 := by
        simp only [conLen, NodeCon.single, NodeCon.cap, Nat.add_sub_cancel, h.step.keep.len _ hnode]
        omega
      refine ⟨h.step, h.keys, ?_, ?_, ?_, ?_, ?_⟩
      · intro x hx
        rcases List.mem_append.1 hx with hx | hx
        · obtain ⟨h1, h2⟩ := h.cons x hx
          exact ⟨h1.mono (by simp only; omega), h2.mono _⟩
        · simp only [List.mem_singleton] at hx
          subst hx
          exact ⟨⟨h.step.keep.node _ hnode, hw0, by simp only; rw [hcl]; omega, by simp only [NodeCon.single]; omega⟩,
            .inr ⟨l, w, rd, by simp, hg, rfl⟩⟩
      · intro root data w' hr
        obtain ⟨h1, h2, h3, h4, h5⟩ := h.tots root data w' hr
        exact ⟨h1, by simp only; omega, h3, h4, fun i => by rw [hnf]; exact h5 i⟩
      · intro root i hf
        exact h.full root i ((hnf root i).1 hf)
      · intro t
        simp only [List.map_append, List.sum_append, wsum_append, ← h.val t, List.map_singleton, List.sum_singleton, wsum_single]
        simp only [conVal, NodeCon.single, NodeCon.cap, litV, hg, Nat.add_sub_cancel, h.step.keep.cnt _ _ hnode]
        rw [cap_one rd.oidx rd.oidx (by omega)]
        omega
      · simp only [List.map_append, List.sum_append, wsum_append, ← h.len, List.map_singleton, List.sum_singleton, wsum_single, hcl]
        simp only [NodeCon.single]
        omega
    · next hge =>
      have hww : w = rd.totWeight := by omega
      have hnf : ∀ root i, FullAt c (L ++ [(l, w)]) root i ↔ FullAt c L root i ∨ (rd.root = root ∧ rd.oidx = i) := by
        intro root i
        rw [fullAt_snoc, hg]
        simp only [Option.some.injEq]
        constructor
        · rintro (h | ⟨rd', rfl, h2, h3, -⟩)
          · exact .inl h
          · exact .inr ⟨h2, h3⟩
        · rintro (h | ⟨h2, h3⟩)
          · exact .inl h
          · exact .inr ⟨rd, rfl, h2, h3, by omega⟩
      have hnot : ¬ FullAt c L rd.root rd.oidx := by
        rintro ⟨l', w', rd', h1, h2, h3, h4, h5⟩
        have := (hk.uniq l l' rd rd' hg h2 h3.symm).2 h4.symm
        subst this
        exact hnew (List.mem_map.2 ⟨_, h1, rfl⟩)
      have hgo : ∀ data : List Bool, data[rd.oidx]? = some false → data.length = TotDb.len c.db rd.root →
          (∀ i : Nat, data[i]? = some true ↔ FullAt c L rd.root i) →
          (∀ g : Nat → Nat → Nat, msum (fun p => p.2.2 * tsum (g p.1) 0 p.2.1)
            (mapInsert rd.root (data.set rd.oidx true, rd.totWeight) st.tots) =
            msum (fun p => p.2.2 * tsum (g p.1) 0 p.2.1) st.tots + rd.totWeight * g rd.root rd.oidx) →
          SInv n0 c (L ++ [(l, w)]) ⟨st.cons,
            mapInsert rd.root (data.set rd.oidx true, rd.totWeight) st.tots, st.db, max w st.maxLeaf⟩ := by
        intro data hd hlen hfull hsum
        have hset : ∀ i : Nat, (data.set rd.oidx true)[i]? = some true ↔ FullAt c (L ++ [(l, w)]) rd.root i := by
          intro i
          rw [hnf, ← hfull, List.getElem?_set]
          have hlt : rd.oidx < data.length := (List.getElem?_eq_some_iff.1 hd).1
          by_cases hi : rd.oidx = i
          · subst hi
            simp [hlt]
          · simp [hi]
        refine ⟨h.step, (mapInsert_nodup _ _ h.keys).1, ?_, ?_, ?_, ?_, ?_⟩
        · intro x hx
          obtain ⟨h1, h2⟩ := h.cons x hx
          exact ⟨h1.mono (by simp only; omega), h2.mono _⟩
        · intro root data' w' hr
          rw [mapGet_mapInsert] at hr
          split at hr
          · next he =>
            subst he
            simp only [Option.some.injEq, Prod.mk.injEq] at hr
            obtain ⟨rfl, rfl⟩ := hr
            exact ⟨by rw [List.length_set]; exact hlen, by simp only; omega, ⟨l, rd, hg, rfl, rfl⟩,
              ⟨rd.oidx, (hset _).2 ((hnf _ _).2 (.inr ⟨rfl, rfl⟩))⟩, hset⟩
          · next he =>
            obtain ⟨h1, h2, h3, h4, h5⟩ := h.tots root data' w' hr
            refine ⟨h1, by simp only; omega, h3, h4, fun i => ?_⟩
            rw [hnf, h5 i]
            constructor
            · exact .inl
            · rintro (h' | ⟨h', -⟩)
              · exact h'
              · exact absurd h' he
        · intro root i hf
          rw [mapGet_mapInsert]
          split
          · exact ⟨_, rfl⟩
          · next he =>
            rcases (hnf root i).1 hf with h' | ⟨h', -⟩
            · exact h.full root i h'
            · exact absurd h' he
        · intro t
          have := hsum fun root i => if i < cnt c.db root t then 1 else 0
          simp only [wsum_append, ← h.val t, wsum_single, this]
          simp only [litV, hg, hww]
          omega
        · have := hsum fun _ _ => 1
          simp only [wsum_append, ← h.len, wsum_single, this]
          omega
      cases hm : mapGet rd.root st.tots with
      | some v =>
        obtain ⟨data, w'⟩ := v
        simp only
        obtain ⟨h1, h2, ⟨l', rd', a1, a2, a3⟩, h4, h5⟩ := h.tots _ _ _ hm
        have hw' : w' = rd.totWeight := by rw [← a3]; exact (hk.uniq l' l rd' rd a1 hg a2).1
        subst hw'
        have hlt : rd.oidx < data.length := by rw [h1]; exact i2
        have hfalse : data[rd.oidx]? = some false := by
          rw [List.getElem?_eq_getElem hlt]
          cases hb : data[rd.oidx] with
          | false => rfl
          | true => exact absurd ((h5 _).1 (by rw [List.getElem?_eq_getElem hlt, hb])) hnot
        rw [wp_bind, hfalse, wp_unwrap_some, wp_bind]
        refine wp_dbg rfl ?_
        rw [wp_pure]
        apply hQ
        refine hgo data hfalse h1 h5 fun g => ?_
        have := msum_insert (fun p : Nat × List Bool × Nat => p.2.2 * tsum (g p.1) 0 p.2.1) rd.root (data, rd.totWeight)
          (data.set rd.oidx true, rd.totWeight) st.tots hm
        simp only at this
        rw [tsum_set _ _ _ _ hfalse, Nat.mul_add, Nat.zero_add] at this
        omega
      | none =>
        simp only
        have hlt : rd.oidx < TotDb.len st.db rd.root := by rw [h.step.keep.len _ hnode]; exact i2
        have hfalse : (List.replicate (TotDb.len st.db rd.root) false)[rd.oidx]? = some false := by
          rw [List.getElem?_replicate, if_pos hlt]
        rw [wp_bind, hfalse, wp_unwrap_some, wp_pure]
        apply hQ
        refine hgo _ hfalse (by rw [List.length_replicate, h.step.keep.len _ hnode]) (fun i => ?_) fun g => ?_
        · rw [List.getElem?_replicate]
          constructor
          · intro h'
            split at h' <;> simp at h'
          · intro h'
            obtain ⟨v, hv⟩ := h.full _ _ h'
            rw [hm] at hv
            simp at hv
        · rw [msum_insert_new _ _ _ _ hm]
          simp only
          rw [tsum_set _ _ _ _ hfalse, tsum_replicate, Nat.zero_add, Nat.zero_add]

theorem wp_readSofts {Q : SoftSt D → Slv P C → Prop} (hk : Items n0 d I R c K) (M L : List (Lit × Nat)) {st : SoftSt D}
    (h : SInv n0 c L st) (hL : ∀ p ∈ L ++ M, p ∈ K) (hnd : ((L ++ M).map Prod.fst).Nodup)
    (hQ : ∀ st', SInv n0 c (L ++ M) st' → Q st' s) : wp env (readSofts c.outs (M.map softOf) st) Q E s := by
  induction M generalizing L st with
  | nil =>
    simp only [List.map_nil, readSofts]
    rw [wp_pure]
    exact hQ st (by rw [List.append_nil]; exact h)
  | cons p M ih =>
    obtain ⟨l, w⟩ := p
    simp only [List.map_cons, readSofts]
    rw [wp_bind]
    have e : L ++ (l, w) :: M = (L ++ [(l, w)]) ++ M := by simp
    refine wp_readSoft hk h (fun p hp => hL p (by simp [hp])) (hL _ (by simp)) ?_ fun st' hst' => ?_
    · rw [List.map_append, List.map_cons, List.nodup_append] at hnd
      intro hm
      exact hnd.2.2 _ hm _ (by simp) rfl
    · refine ih (L ++ [(l, w)]) hst' (by rw [← e]; exact hL) (by rw [← e]; exact hnd) ?_
      rw [← e]
      exact hQ

/-! ## Connections for the totalizers -/

theorem wsum_sublist {f : Lit → Nat} {A B : List (Lit × Nat)} (h : A.Sublist B) : wsum f A ≤ wsum f B := by
  induction h with
  | slnil => exact Nat.le_refl _
  | cons a _ ih =>
    simp only [wsum, List.map_cons, List.sum_cons] at ih ⊢
    omega
  | cons_cons a _ ih =>
    simp only [wsum, List.map_cons, List.sum_cons] at ih ⊢
    omega

theorem wsum_perm {f : Lit → Nat} {A B : List (Lit × Nat)} (h : A.Perm B) : wsum f A = wsum f B := by
  unfold wsum
  exact (h.map _).sum_nat

theorem wsum_subset {f : Lit → Nat} {A B : List (Lit × Nat)} (hn : A.Nodup) (h : ∀ p ∈ A, p ∈ B) : wsum f A ≤ wsum f B := by
  obtain ⟨l, h1, h2⟩ := hn.subperm h
  rw [← wsum_perm h1]
  exact wsum_sublist h2

/-- Outputs from `b` on of the totalizer of `l`. -/
theorem Items.block (hk : Items n0 d I R c K) {l : Lit} {w : Nat} {rd : ReformData} (hl : (l, w) ∈ K)
    (hg : mapGet l c.outs = some rd) {b : Nat} (hb : rd.oidx < b) : ∃ A : List (Lit × Nat), A.Nodup ∧
      (∀ p ∈ A, p ∈ K ∧ p.2 = rd.totWeight ∧ ∃ i, b ≤ i ∧ i < TotDb.len c.db rd.root ∧
        mapGet p.1 c.outs = some { rd with oidx := i }) ∧
      wsum (fun _ => 1) A = rd.totWeight * (TotDb.len c.db rd.root - b) := by
  have hex : ∀ i, b ≤ i → i < TotDb.len c.db rd.root → (outL c.db rd.root i, rd.totWeight) ∈ K ∧
      mapGet (outL c.db rd.root i) c.outs = some { rd with oidx := i } := by
    intro i h1 h2
    obtain ⟨l', h3, h4⟩ := hk.up l w rd i hl hg (by omega) h2
    have h5 : outL c.db rd.root i = l' := by
      rcases hk.item l' _ h3 with ⟨h5, -⟩ | ⟨rd', h5, h6, -⟩
      · rw [h4] at h5; simp at h5
      · rw [h4] at h5
        simp only [Option.some.injEq] at h5
        subst h5
        exact outL_eq (LawfulInproDb.held_out _ _ _ _ h6)
    rw [h5]
    exact ⟨h3, h4⟩
  refine ⟨(List.range' b (TotDb.len c.db rd.root - b)).map fun i => (outL c.db rd.root i, rd.totWeight), ?_, ?_, ?_⟩
  · refine List.Nodup.map_on ?_ List.nodup_range'
    intro i hi j hj he
    rw [List.mem_range'_1] at hi hj
    simp only [Prod.mk.injEq, and_true] at he
    have h1 := (hex i hi.1 (by omega)).2
    have h2 := (hex j hj.1 (by omega)).2
    rw [he, h2] at h1
    simp only [Option.some.injEq, ReformData.mk.injEq] at h1
    omega
  · intro p hp
    obtain ⟨i, hi, rfl⟩ := List.mem_map.1 hp
    rw [List.mem_range'_1] at hi
    obtain ⟨h1, h2⟩ := hex i hi.1 (by omega)
    exact ⟨h1, rfl, i, hi.1, by omega, h2⟩
  · unfold wsum
    rw [List.map_map]
    have : ∀ is : List Nat, (is.map ((fun p : Lit × Nat => p.2 * 1) ∘ fun i => (outL c.db rd.root i, rd.totWeight))).sum =
        rd.totWeight * is.length := by
      intro is
      induction is with
      | nil => rfl
      | cons i is ih =>
        simp only [List.map_cons, List.sum_cons, ih, Function.comp_apply, List.length_cons]
        rw [Nat.mul_add]
        omega
    rw [this, List.length_range']

theorem Items.block_le (hk : Items n0 d I R c K) {l : Lit} {w : Nat} {rd : ReformData} (hl : (l, w) ∈ K)
    (hg : mapGet l c.outs = some rd) : w * (TotDb.len c.db rd.root - rd.oidx) ≤ wsum (fun _ => 1) K := by
  obtain ⟨A, h1, h2, h3⟩ := hk.block hl hg (Nat.lt_succ_self rd.oidx)
  have hw : w ≤ rd.totWeight := by
    rcases hk.item l w hl with ⟨h, -⟩ | ⟨rd', h, -, h'⟩
    · rw [hg] at h; simp at h
    · rw [hg] at h
      simp only [Option.some.injEq] at h
      subst h
      exact h'
  have hnd : ((l, w) :: A).Nodup := by
    rw [List.nodup_cons]
    refine ⟨fun hm => ?_, h1⟩
    obtain ⟨-, -, i, h4, -, h5⟩ := h2 _ hm
    simp only at h5
    rw [hg] at h5
    simp only [Option.some.injEq] at h5
    have := congrArg ReformData.oidx h5
    simp only at this
    omega
  have hle := wsum_subset (f := fun _ => 1) hnd (B := K) (by
    intro p hp
    rcases List.mem_cons.1 hp with rfl | hp
    · exact hl
    · exact (h2 p hp).1)
  have hlt := (hk.outs l rd hg).2.1
  have e : wsum (fun _ => 1) ((l, w) :: A) = w + wsum (fun _ => 1) A := by simp [wsum]
  rw [e, h3] at hle
  refine Nat.le_trans ?_ hle
  have e2 : TotDb.len c.db rd.root - rd.oidx = (TotDb.len c.db rd.root - (rd.oidx + 1)) + 1 := by omega
  rw [e2, Nat.mul_add, Nat.mul_one, Nat.add_comm]
  exact Nat.add_le_add_left (Nat.mul_le_mul_right _ hw) _

/-- The connection for a totalizer with outputs in use. -/
def TotFor (p : Nat × List Bool × Nat) (x : NodeCon) : Prop :=
  ∃ a b, a < b ∧ b ≤ p.2.1.length ∧ (∀ j : Nat, p.2.1[j]? = some true ↔ a ≤ j ∧ j < b) ∧
    x = ⟨p.1, a, p.2.2, if b = p.2.1.length then none else some (p.2.1.length - 1 - a)⟩

theorem wp_totCons {Q : List NodeCon → Slv P C → Prop} (ps : List (Nat × List Bool × Nat)) (cons : List NodeCon)
    (h : ∀ p ∈ ps, ∃ j : Nat, p.2.1[j]? = some true)
    (hQ : ∀ xs, List.Forall₂ TotFor ps xs → Q (cons ++ xs) s) :
    wp env (totCons ps cons) Q (fun _ _ => True) s := by
  induction ps generalizing cons with
  | nil =>
    unfold totCons
    rw [wp_pure]
    have := hQ [] .nil
    rw [List.append_nil] at this
    exact this
  | cons p ps ih =>
    unfold totCons totCon
    rw [wp_bind, wp_bind]
    cases hr : runOf 0 p.2.1 none none with
    | none => rw [wp_unwrap_none]; trivial
    | some r =>
      rw [wp_unwrap_some, wp_pure]
      refine ih _ (fun q hq => h q (by simp [hq])) fun xs hxs => ?_
      rw [List.append_assoc]
      refine hQ _ (.cons ?_ hxs)
      obtain ⟨a, b, h1, h2, h3, h4⟩ := runOf_spec hr (h p (by simp))
      refine ⟨a, b, h1, h2, h3, ?_⟩
      rw [h4]
      by_cases hb : b = p.2.1.length
      · simp [hb, NodeCon.offsetWeighted]
      · simp [hb, NodeCon.limited]

/-- Literals that contribute nothing. -/
def Zero (c : Coll D) (t : Asg) (A : List (Lit × Nat)) : Prop := ∀ p ∈ A, litV c.db c.outs t p.1 = 0

theorem tot_entry (hk : Items n0 d I R c K) {L Dr : List (Lit × Nat)} {st : SoftSt D} (hst : SInv n0 c L st)
    (hperm : (L ++ Dr).Perm K) {p : Nat × List Bool × Nat} {x : NodeCon} (hp : p ∈ st.tots) (hx : TotFor p x) :
    (∃ A : List (Lit × Nat), A.Nodup ∧ (∀ q ∈ A, q ∈ Dr ∧ ∃ rd, mapGet q.1 c.outs = some rd ∧ rd.root = p.1) ∧
      x.weight * conLen st.db x ≤ p.2.2 * tsum (fun _ => 1) 0 p.2.1 + wsum (fun _ => 1) A) ∧
    ConFine st.db st.maxLeaf x ∧
    (∀ t, Zero c t Dr → conVal st.db t x = p.2.2 * tsum (fun i => if i < cnt c.db p.1 t then 1 else 0) 0 p.2.1 ∧
      x.cap (cnt st.db x.id t - x.offset) = cnt st.db x.id t - x.offset) ∧
    x.weight * (TotDb.len st.db x.id - x.offset) ≤ wsum (fun _ => 1) K := by
  obtain ⟨root, data, w⟩ := p
  obtain ⟨a, b, hab, hb, hrun, rfl⟩ := hx
  simp only at hb hrun ⊢
  obtain ⟨hlen, hw, ⟨l0, rd0, hg0, hr0, ht0⟩, -, hfull⟩ := hst.tots root data w (mapGet_of_mem hst.keys hp)
  obtain ⟨l, w', rd, hl, hg, hr, hoi, htw⟩ := (hfull a).1 ((hrun a).2 ⟨Nat.le_refl _, hab⟩)
  have hlK : (l, w') ∈ K := hperm.subset (List.mem_append_left _ hl)
  have hw' : w' = rd.totWeight := by
    rcases hk.item l w' hlK with ⟨h, -⟩ | ⟨rd', h, -, h'⟩
    · rw [hg] at h; simp at h
    · rw [hg] at h
      simp only [Option.some.injEq] at h
      subst h
      omega
  have htw2 : rd.totWeight = w := by rw [← ht0]; exact (hk.uniq l l0 rd rd0 hg hg0 (by rw [hr, hr0])).1
  subst hr
  subst hoi
  rw [htw2] at hw'
  subst hw'
  obtain ⟨hin, -, hpos⟩ := hk.outs l rd hg
  have hnode : Node c.db rd.root := LawfulTotDb.inner_node _ _ hin
  have hlen' : TotDb.len st.db rd.root = data.length := by rw [hst.step.keep.len _ hnode, hlen]
  have hcnt : ∀ t, cnt st.db rd.root t = cnt c.db rd.root t := fun t => hst.step.keep.cnt _ _ hnode
  have hcl : ∀ t, cnt c.db rd.root t ≤ data.length := fun t => by rw [hlen]; exact LawfulTotDb.cnt_le _ _ _ hnode
  have hdr : ∀ q : Lit × Nat, q ∈ K → q.2 = rd.totWeight → ∀ i, b ≤ i → mapGet q.1 c.outs = some { rd with oidx := i } → q ∈ Dr := by
    intro q hq hq2 i hi hgq
    rcases List.mem_append.1 (hperm.symm.subset hq) with h | h
    · exfalso
      have := (hrun i).1 ((hfull i).2 ⟨q.1, q.2, _, h, hgq, rfl, rfl, by simp [hq2]⟩)
      omega
    · exact h
  have hts : ∀ f : Nat → Nat, tsum f 0 data = ((List.range' rd.oidx (b - rd.oidx)).map f).sum := fun f => by
    have := tsum_run f 0 rd.oidx b data (by omega) (by simpa using hrun)
    rw [Nat.zero_max] at this
    exact this
  obtain ⟨A, hA1, hA2, hA3⟩ := hk.block hlK hg hab
  rw [← hlen, htw2] at hA3
  refine ⟨⟨A, hA1, fun q hq => ?_, ?_⟩, ⟨hst.step.keep.node _ hnode, by simp only; omega, ?_, hw⟩, fun t ht => ?_, ?_⟩
  · obtain ⟨h1, h2, i, h3, -, h4⟩ := hA2 q hq
    exact ⟨hdr q h1 h2 i h3 h4, _, h4, rfl⟩
  · have h1 : tsum (fun _ => 1) 0 data = b - rd.oidx := by rw [hts]; simp
    rw [hA3, h1, ← Nat.mul_add]
    refine Nat.mul_le_mul_left _ ?_
    unfold conLen NodeCon.cap
    simp only [hlen']
    by_cases hbe : b = data.length
    · simp only [hbe, if_true]; omega
    · simp only [hbe, if_false]; omega
  · unfold conLen NodeCon.cap
    simp only [hlen']
    by_cases hbe : b = data.length
    · simp only [hbe, if_true]; omega
    · simp only [hbe, if_false]; omega
  · have hle : cnt c.db rd.root t ≤ b := by
      by_cases hbe : b = data.length
      · rw [hbe]; exact hcl t
      · obtain ⟨l', h1, h2⟩ := hk.up l _ rd b hlK hg hab (by rw [← hlen]; omega)
        have h3 := ht _ (hdr (l', rd.totWeight) h1 rfl b (Nat.le_refl _) h2)
        unfold litV at h3
        simp only [h2] at h3
        split at h3
        · simp at h3
        · omega
    have hcap : NodeCon.cap ⟨rd.root, rd.oidx, w', if b = data.length then none else some (data.length - 1 - rd.oidx)⟩
        (cnt st.db rd.root t - rd.oidx) = cnt st.db rd.root t - rd.oidx := by
      unfold NodeCon.cap
      rw [hcnt]
      by_cases hbe : b = data.length
      · simp only [hbe, if_true]
      · simp only [hbe, if_false]; omega
    refine ⟨?_, hcap⟩
    unfold conVal
    simp only
    rw [hcap, hcnt, hts, sum_range_lt]
    congr 1
    omega
  · simp only [hlen', hlen]
    exact hk.block_le hlK hg

theorem tots_sum (hk : Items n0 d I R c K) {L Dr : List (Lit × Nat)} {st : SoftSt D} (hst : SInv n0 c L st)
    (hperm : (L ++ Dr).Perm K) {ps : List (Nat × List Bool × Nat)} {xs : List NodeCon} (hps : ∀ p ∈ ps, p ∈ st.tots)
    (hn : (ps.map Prod.fst).Nodup) (hx : List.Forall₂ TotFor ps xs) :
    (∀ x ∈ xs, ConFine st.db st.maxLeaf x) ∧
    (∀ t, Zero c t Dr → (xs.map (conVal st.db t)).sum =
      msum (fun p => p.2.2 * tsum (fun i => if i < cnt c.db p.1 t then 1 else 0) 0 p.2.1) ps) ∧
    ∃ A : List (Lit × Nat), A.Nodup ∧ (∀ q ∈ A, q ∈ Dr ∧ ∃ rd, mapGet q.1 c.outs = some rd ∧ rd.root ∈ ps.map Prod.fst) ∧
      (xs.map fun x => x.weight * conLen st.db x).sum ≤
        msum (fun p => p.2.2 * tsum (fun _ => 1) 0 p.2.1) ps + wsum (fun _ => 1) A := by
  induction hx with
  | nil => exact ⟨by simp, fun _ _ => rfl, [], List.nodup_nil, by simp, by simp⟩
  | @cons p x ps xs h1 _ ih =>
    rw [List.map_cons, List.nodup_cons] at hn
    obtain ⟨i1, i2, A, i3, i4, i5⟩ := ih (fun q hq => hps q (by simp [hq])) hn.2
    obtain ⟨⟨B, b1, b2, b3⟩, b4, b5, -⟩ := tot_entry hk hst hperm (hps p (by simp)) h1
    refine ⟨fun y hy => ?_, fun t ht => ?_, B ++ A, ?_, fun q hq => ?_, ?_⟩
    · rcases List.mem_cons.1 hy with rfl | hy
      · exact b4
      · exact i1 y hy
    · simp only [List.map_cons, List.sum_cons, msum]
      rw [(b5 t ht).1, i2 t ht]
      rfl
    · rw [List.nodup_append]
      refine ⟨b1, i3, fun q hq q' hq' he => ?_⟩
      subst he
      obtain ⟨-, rd, h2, h3⟩ := b2 q hq
      obtain ⟨-, rd', h4, h5⟩ := i4 q hq'
      rw [h2] at h4
      simp only [Option.some.injEq] at h4
      subst h4
      rw [h3] at h5
      exact hn.1 h5
    · rcases List.mem_append.1 hq with hq | hq
      · obtain ⟨h2, rd, h3, h4⟩ := b2 q hq
        exact ⟨h2, rd, h3, by simp [h4]⟩
      · obtain ⟨h2, rd, h3, h4⟩ := i4 q hq
        exact ⟨h2, rd, h3, by rw [List.map_cons]; exact List.mem_cons_of_mem _ h4⟩
    · rw [wsum_append]
      simp only [List.map_cons, List.sum_cons, msum] at i5 ⊢
      omega

/-! ## The encoding of one objective -/

variable [MergeEnc P C D] [LawfulMergeEnc P C D]

theorem wp_inproEnc {pb : Pb} {o : Objective} {n : Nat} {Q : ObjEnc P C → Slv P C → Prop} {L Dr : List (Lit × Nat)} {reform : Reform}
    (hk : Items pb.n0 d I R c K) (hmg : MergeOK pb o d I R reform.offset) (hperm : (L ++ Dr).Perm K)
    (hdrop : ∀ t, pb.Sol t → Zero c t Dr) (hne : L ≠ []) (hio : IoInv env n s.io)
    (hQ : ∀ e s', Same s s' → s'.k = s.k → IoInv env n s'.io → GoodEnc pb o c.db reform.offset e → Q e s') :
    wp env (inproEnc (L.map softOf) 0 reform c.outs c.db) Q (fun _ _ => True) s := by
  have hnd : ((L ++ Dr).map Prod.fst).Nodup := (hperm.map _).nodup_iff.2 hk.nodup
  have hLn : (L.map Prod.fst).Nodup := by rw [List.map_append, List.nodup_append] at hnd; exact hnd.1
  have hLK : ∀ p ∈ L, p ∈ K := fun p hp => hperm.subset (List.mem_append_left _ hp)
  unfold inproEnc logRoutineStart logRoutineEnd
  rw [wp_bind]
  refine wp_readSofts hk L [] (SInv.init _ _) (by simpa using hLK) (by simpa using hLn) fun st hst => ?_
  rw [List.nil_append] at hst
  rw [wp_bind]
  refine wp_logEvent _ hio (fun s1 h1 k1 io1 => ?_) (fun _ _ _ _ => trivial)
  rw [wp_bind]
  have htr : ∀ p ∈ st.tots, ∃ j : Nat, p.2.1[j]? = some true := by
    rintro ⟨root, data, w⟩ hp
    exact (hst.tots root data w (mapGet_of_mem hst.keys hp)).2.2.2.1
  refine wp_totCons _ _ htr fun xs hxs => ?_
  rw [wp_bind]
  refine wp_checkTermination io1 (fun s2 h2 k2 io2 _ => ?_) (fun _ _ _ _ => trivial)
  rw [wp_bind]
  have hoff : ((reform.offset : Int) + 0).toNat = reform.offset := by simp
  rw [hoff]
  obtain ⟨t1, t2, A, t3, t4, t5⟩ := tots_sum hk hst hperm (fun p hp => hp) hst.keys hxs
  have hmax : reform.offset + wsum (fun _ => 1) K = maxCost o := by rw [hk.max]; exact hmg.sumMax
  have hKsum : ∀ f : Lit → Nat, wsum f K = wsum f L + wsum f Dr := fun f => by rw [← wsum_perm hperm, wsum_append]
  have hA : wsum (fun _ => 1) A ≤ wsum (fun _ => 1) Dr := wsum_subset t3 fun q hq => (t4 q hq).1
  have hlen : reform.offset + ((st.cons ++ xs).map fun c => c.weight * conLen st.db c).sum ≤ maxCost o := by
    rw [← hmax, hKsum, List.map_append, List.sum_append, ← hst.len]
    omega
  have hone : ∀ x, st.cons ++ xs = [x] → (∀ t, pb.Sol t → x.cap (cnt st.db x.id t - x.offset) = cnt st.db x.id t - x.offset) ∧
      reform.offset + x.weight * (TotDb.len st.db x.id - x.offset) ≤ maxCost o := by
    intro x hx
    rcases List.append_eq_singleton_iff.1 hx with ⟨hc, hxx⟩ | ⟨hc, hxx⟩
    · subst hxx
      cases hxs' : st.tots with
      | nil => rw [hxs'] at hxs; cases hxs
      | cons p ps =>
        rw [hxs'] at hxs
        cases hxs with
        | cons a1 a2 =>
          obtain ⟨-, -, b5, b6⟩ := tot_entry hk hst hperm (p := p) (by rw [hxs']; simp) a1
          exact ⟨fun t ht => (b5 t (hdrop t ht)).2, by rw [← hmax]; omega⟩
    · subst hxx
      have htots : st.tots = [] := by
        cases h : st.tots with
        | nil => rfl
        | cons p ps => rw [h] at hxs; cases hxs
      obtain ⟨hf, hfrom⟩ := hst.cons x (by rw [hc]; simp)
      rcases hfrom with hnone | ⟨l, w, rd, hl, hg, rfl⟩
      · have hcap : ∀ y, x.cap y = y := fun y => by unfold NodeCon.cap; rw [hnone]
        refine ⟨fun t _ => hcap _, ?_⟩
        rw [hx] at hlen
        simp only [List.map_cons, List.map_nil, List.sum_cons, List.sum_nil, conLen, hcap] at hlen
        omega
      · obtain ⟨hin, hlt, -⟩ := hk.outs l rd hg
        have hnode : Node c.db rd.root := LawfulTotDb.inner_node _ _ hin
        simp only [NodeCon.single, Nat.add_sub_cancel]
        rw [hst.step.keep.len _ hnode]
        refine ⟨fun t ht => ?_, ?_⟩
        · rw [hst.step.keep.cnt _ _ hnode]
          have hle : cnt c.db rd.root t ≤ rd.oidx + 1 := by
            by_cases hN : rd.oidx + 1 < TotDb.len c.db rd.root
            · obtain ⟨l', h3, h4⟩ := hk.up l w rd (rd.oidx + 1) (hLK _ hl) hg (by omega) hN
              rcases List.mem_append.1 (hperm.symm.subset h3) with h5 | h5
              · exfalso
                obtain ⟨v, hv⟩ := hst.full rd.root (rd.oidx + 1) ⟨l', _, _, h5, h4, rfl, rfl, Nat.le_refl _⟩
                rw [htots] at hv
                simp [mapGet] at hv
              · have h6 := hdrop t ht _ h5
                unfold litV at h6
                simp only [h4] at h6
                split at h6
                · simp at h6
                · omega
            · have := LawfulTotDb.cnt_le c.db rd.root t hnode
              omega
          unfold NodeCon.cap
          simp only
          omega
        · have := hk.block_le (hLK _ hl) hg
          rw [← hmax]
          omega
  have hcne : st.cons ++ xs ≠ [] := by
    intro h0
    obtain ⟨h3, h4⟩ := List.append_eq_nil_iff.1 h0
    have h5 : st.tots = [] := by
      cases h : st.tots with
      | nil => rfl
      | cons p ps => rw [h, h4] at hxs; cases hxs
    have h6 := hst.len
    rw [h3, h5] at h6
    simp only [List.map_nil, List.sum_nil, msum] at h6
    cases hL' : L with
    | nil => exact hne hL'
    | cons p L' =>
      rw [hL'] at h6
      have := hk.pos p.1 p.2 (hLK _ (by rw [hL']; simp))
      simp only [wsum, List.map_cons, List.sum_cons] at h6
      omega
  refine wp_mergeCons_raw (pb := pb) (o := o) hst.step hcne (fun x hx => ?_) (fun t ht => ?_) hlen hone fun e he => ?_
  · rcases List.mem_append.1 hx with hx | hx
    · exact (hst.cons x hx).1
    · exact t1 x hx
  · have hz : wsum (litV c.db c.outs t) Dr = 0 := by
      have : wsum (litV c.db c.outs t) Dr ≤ wsum (fun _ => 0) Dr := wsum_le fun p hp => by rw [hdrop t ht p hp]
      have h0 : wsum (fun _ => 0) Dr = 0 := by unfold wsum; simp
      omega
    rw [hk.icost hmg ht, hKsum, hz, List.map_append, List.sum_append, t2 t (hdrop t ht), hst.val t, Nat.add_zero]
  · rw [wp_bind]
    refine wp_logEvent _ io2 (fun s3 h3 k3 io3 => ?_) (fun _ _ _ _ => trivial)
    rw [wp_pure]
    exact hQ e s3 ((h1.trans h2).trans h3) (by rw [k3, k2, k1]) io3 he

end Scuttle
