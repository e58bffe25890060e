import Verif.Proof.InproLaws
import Verif.Proof.CoreBoost
import Verif.Props.VarManager
import Mathlib.Data.List.Nodup

/-!
# The instance that is given to MaxPre
-/

set_option linter.unusedSectionVars false

namespace Scuttle

open Spec

variable {D : Type} [TotDb D] [LawfulTotDb D] [InproDb D] [LawfulInproDb D]
variable {c c' c'' : Coll D} {n0 : Nat} {R : List (Lit × ReformData)}

open TotSem (Node Inner cnt Sound Exact Below Inputs Base IsOut)
open LawfulInproDb (Held)

/-! ## Steps -/

/-- What holds of the clauses and the database. -/
structure CGood (n0 : Nat) (c : Coll D) : Prop where
  le : n0 ≤ c.next
  below : Below c.db c.next
  inputs : Inputs c.db n0
  base : Base c.db n0
  vars : VarsBelow c.next c.cnf
  sound : ∀ m, cnfEval m c.cnf = true → Sound c.db m

/-- Clauses and outputs were only added. -/
structure CStep (c c' : Coll D) : Prop where
  keep : DStep c.db c'.db
  held : ∀ id i l, Held c.db id i l → Held c'.db id i l
  next : c.next ≤ c'.next
  cnf : ∀ m, cnfEval m c'.cnf = true → cnfEval m c.cnf = true
  exact : ∀ m, cnfEval m c.cnf = true → Exact c.db m →
    ∃ m', AgreeBelow c.next m m' ∧ cnfEval m' c'.cnf = true ∧ Exact c'.db m'

theorem CStep.refl (c : Coll D) : CStep c c :=
  ⟨DStep.refl _, fun _ _ _ h => h, Nat.le_refl _, fun _ h => h, fun m h he => ⟨m, AgreeBelow.refl _ _, h, he⟩⟩

theorem CStep.trans (h : CStep c c') (h' : CStep c' c'') : CStep c c'' where
  keep := h.keep.trans h'.keep
  held := fun id i l hl => h'.held id i l (h.held id i l hl)
  next := Nat.le_trans h.next h'.next
  cnf := fun m hm => h.cnf m (h'.cnf m hm)
  exact := fun m hm he => by
    obtain ⟨m1, h1, h2, h3⟩ := h.exact m hm he
    obtain ⟨m2, h4, h5, h6⟩ := h'.exact m1 h2 h3
    exact ⟨m2, h1.trans (h4.mono h.next), h5, h6⟩

/-- The literal for an output. -/
def outL (d : D) (root i : Nat) : Lit := (TotDb.define d root i 0).2.1

theorem outL_eq {d : D} {root i : Nat} {l : Lit} (h : Held d root i l) : outL d root i = l :=
  LawfulInproDb.held_define _ _ _ _ _ h

/-- The outputs that are looked up belong to totalizers of the reformulation. -/
structure OutsOK (R : List (Lit × ReformData)) (c : Coll D) : Prop where
  outs : ∀ l rd, mapGet l c.outs = some rd → Inner c.db rd.root ∧ Held c.db rd.root rd.oidx l ∧
    rd.oidx < TotDb.len c.db rd.root ∧ ∃ l0 rd0, mapGet l0 R = some rd0 ∧ rd = { rd0 with oidx := rd.oidx }
  keys : ∀ l rd, mapGet l R = some rd → mapGet l c.outs = some rd

/-- Weight of an output. -/
def outW (rd : ReformData) (w i : Nat) : Nat := if i = rd.oidx then w else rd.totWeight

/-- The soft clause for a literal. -/
def softOf (p : Lit × Nat) : Clause × Nat := ([p.1.not], p.2)

theorem collectOut_step (hg : CGood n0 c) (ho : OutsOK R c) (hroots : (R.map fun p => p.2.root).Nodup) {l0 : Lit}
    {rd : ReformData} (hr : mapGet l0 R = some rd) (w : Nat) {i : Nat} (hi : i < TotDb.len c.db rd.root) :
    CGood n0 (collectOut rd w c i) ∧ CStep c (collectOut rd w c i) ∧ OutsOK R (collectOut rd w c i) ∧
    (∀ l x, mapGet l c.outs = some x → mapGet l (collectOut rd w c i).outs = some x) ∧
    IsOut (collectOut rd w c i).db rd.root i (outL (collectOut rd w c i).db rd.root i) ∧
    mapGet (outL (collectOut rd w c i).db rd.root i) (collectOut rd w c i).outs = some { rd with oidx := i } ∧
    (collectOut rd w c i).softs = c.softs ++ [softOf (outL (collectOut rd w c i).db rd.root i, outW rd w i)] := by
  obtain ⟨o1, o2, o3, -⟩ := ho.outs l0 rd (ho.keys l0 rd hr)
  have hn := LawfulTotDb.inner_node _ _ o1
  have hout := LawfulTotDb.define_out c.db rd.root i c.next hn hi
  have hst := LawfulTotDb.define_step c.db rd.root i c.next
  have hnx := LawfulTotDb.define_next c.db rd.root i c.next hg.below
  have hbl := LawfulTotDb.define_below c.db rd.root i c.next hg.below
  have hvr := LawfulTotDb.define_vars c.db rd.root i c.next hg.below
  have hsd := fun m => LawfulTotDb.define_sound c.db rd.root i c.next m hg.below
  have hex := fun m => LawfulTotDb.define_exact c.db rd.root i c.next m hg.below
  have hip := LawfulTotDb.define_inputs c.db rd.root i c.next n0 hg.inputs
  have hbs := LawfulTotDb.define_base c.db rd.root i c.next n0 hg.base hg.below hg.le
  have hhs := fun id j l => LawfulInproDb.held_step c.db id j l rd.root i c.next
  have hsame : i = rd.oidx → (TotDb.define c.db rd.root i c.next).2.1 = l0 := by
    rintro rfl
    exact LawfulInproDb.held_define _ _ _ _ _ o2
  have hol := outL_eq (LawfulInproDb.held_out _ _ _ _ hout)
  unfold collectOut
  generalize TotDb.define c.db rd.root i c.next = r at *
  obtain ⟨d1, l, cs, n1⟩ := r
  simp only at *
  rw [hol]
  have hheld := LawfulInproDb.held_out _ _ _ _ hout
  -- an entry for the literal is that of this output
  have hent : ∀ x, mapGet l c.outs = some x → x = { rd with oidx := i } := by
    intro x hx
    obtain ⟨x1, x2, x3, l1, rd1, x4, x5⟩ := ho.outs l x hx
    obtain ⟨e1, e2⟩ := LawfulInproDb.held_inj _ _ _ _ _ _ (hst.inner _ x1) (hst.inner _ o1) (hhs _ _ _ x2) hheld
    have : rd1 = rd := by
      have h1 := mapGet_mem x4
      have h2 := mapGet_mem hr
      have := nodup_mem_unique hroots h1 h2 (by rw [x5] at e1; exact e1)
      simp only [Prod.mk.injEq] at this
      exact this.2
    rw [x5, this, e2]
  have hget : ∀ l', mapGet l' (if i = rd.oidx then c.outs else mapInsert l { rd with oidx := i } c.outs) =
      if l' = l then some { rd with oidx := i } else mapGet l' c.outs := by
    intro l'
    split
    · next he =>
      split
      · next he' =>
        rw [he', hsame he, ho.keys l0 rd hr, he]
      · rfl
    · rw [mapGet_mapInsert]; simp only [eq_comm]
  refine ⟨⟨Nat.le_trans hg.le hnx, hbl, hip, hbs, (hg.vars.mono hnx).append hvr, fun m hm => ?_⟩,
    ⟨hst, hhs, hnx, fun m hm => ?_, fun m hm he => ?_⟩, ⟨fun l' x hx => ?_, fun l' x hx => ?_⟩, fun l' x hx => ?_, hout, ?_, rfl⟩
  · rw [cnfEval_append] at hm
    exact hsd m (hg.sound m hm.1) hm.2
  · rw [cnfEval_append] at hm
    exact hm.1
  · obtain ⟨m', h1, h2, h3⟩ := hex m he
    refine ⟨m', h1, ?_, h3⟩
    rw [cnfEval_append]
    exact ⟨by rw [← cnfEval_agree h1 hg.vars]; exact hm, h2⟩
  · rw [hget] at hx
    split at hx
    · next he =>
      subst he
      simp only [Option.some.injEq] at hx
      subst hx
      exact ⟨hst.inner _ o1, hheld, by simp only; rw [hst.len _ hn]; exact hi, l0, rd, hr, rfl⟩
    · obtain ⟨x1, x2, x3, x4⟩ := ho.outs l' x hx
      exact ⟨hst.inner _ x1, hhs _ _ _ x2, by rw [hst.len _ (LawfulTotDb.inner_node _ _ x1)]; exact x3, x4⟩
  · rw [hget]
    have := ho.keys l' x hx
    split
    · next he => rw [hent x (he ▸ this)]
    · exact this
  · rw [hget]
    split
    · next he => rw [hent x (he ▸ hx)]
    · exact hx
  · rw [hget, if_pos rfl]

/-! ## The items of the soft clauses -/

/-- Literals with weights for a literal of the reformulated objective. -/
def itemsOf (d : D) (R : List (Lit × ReformData)) (p : Lit × Nat) : List (Lit × Nat) :=
  match mapGet p.1 R with
  | some rd => (List.range' rd.oidx (TotDb.len d rd.root - rd.oidx)).map fun i => (outL d rd.root i, outW rd p.2 i)
  | none => [p]

/-- All outputs of the totalizer of a literal are looked up. -/
def OutsFull (c : Coll D) (R : List (Lit × ReformData)) (l : Lit) : Prop :=
  ∀ rd, mapGet l R = some rd → ∀ i, rd.oidx ≤ i → i < TotDb.len c.db rd.root →
    IsOut c.db rd.root i (outL c.db rd.root i) ∧ mapGet (outL c.db rd.root i) c.outs = some { rd with oidx := i }

/-- What a part of the collection does. -/
structure CRun (n0 : Nat) (R : List (Lit × ReformData)) (c c' : Coll D) : Prop where
  good : CGood n0 c'
  step : CStep c c'
  ok : OutsOK R c'
  outs : ∀ l x, mapGet l c.outs = some x → mapGet l c'.outs = some x

theorem CRun.trans (h : CRun n0 R c c') (h' : CRun n0 R c' c'') : CRun n0 R c c'' :=
  ⟨h'.good, h.step.trans h'.step, h'.ok, fun l x hx => h'.outs l x (h.outs l x hx)⟩

theorem collectRange (hg : CGood n0 c) (ho : OutsOK R c) (hroots : (R.map fun p => p.2.root).Nodup) {l0 : Lit}
    {rd : ReformData} (hr : mapGet l0 R = some rd) (w : Nat) (is : List Nat) (hi : ∀ i ∈ is, i < TotDb.len c.db rd.root) :
    CRun n0 R c (is.foldl (collectOut rd w) c) ∧
    (∀ i ∈ is, IsOut (is.foldl (collectOut rd w) c).db rd.root i (outL (is.foldl (collectOut rd w) c).db rd.root i) ∧
      mapGet (outL (is.foldl (collectOut rd w) c).db rd.root i) (is.foldl (collectOut rd w) c).outs =
        some { rd with oidx := i }) ∧
    (is.foldl (collectOut rd w) c).softs = c.softs ++
      is.map fun i => softOf (outL (is.foldl (collectOut rd w) c).db rd.root i, outW rd w i) := by
  induction is generalizing c with
  | nil => exact ⟨⟨hg, CStep.refl _, ho, fun _ _ h => h⟩, by simp, by simp⟩
  | cons i is ih =>
    obtain ⟨h1, h2, h3, h4, h5, h6, h7⟩ := collectOut_step hg ho hroots hr w (hi i (by simp))
    have hnode := LawfulTotDb.inner_node _ _ (ho.outs l0 rd (ho.keys l0 rd hr)).1
    obtain ⟨g1, g2, g3⟩ := ih h1 h3 (fun j hj => by rw [h2.keep.len _ hnode]; exact hi j (by simp [hj]))
    simp only [List.foldl_cons]
    have hlast : outL ((is.foldl (collectOut rd w) (collectOut rd w c i))).db rd.root i =
        outL (collectOut rd w c i).db rd.root i :=
      outL_eq (g1.step.held _ _ _ (LawfulInproDb.held_out _ _ _ _ h5))
    refine ⟨CRun.trans ⟨h1, h2, h3, h4⟩ g1, ?_, ?_⟩
    · intro j hj
      rcases List.mem_cons.1 hj with rfl | hj
      · rw [hlast]
        exact ⟨g1.step.keep.out _ _ _ h5, g1.outs _ _ h6⟩
      · exact g2 j hj
    · rw [g3, h7, List.map_cons, hlast, List.append_assoc]
      rfl

theorem collectLit_run (hg : CGood n0 c) (ho : OutsOK R c) (hroots : (R.map fun p => p.2.root).Nodup) (p : Lit × Nat) :
    CRun n0 R c (collectLit R c p) ∧ OutsFull (collectLit R c p) R p.1 ∧
    (collectLit R c p).softs = c.softs ++ (itemsOf (collectLit R c p).db R p).map softOf := by
  unfold collectLit itemsOf OutsFull
  cases hr : mapGet p.1 R with
  | none => exact ⟨⟨⟨hg.le, hg.below, hg.inputs, hg.base, hg.vars, hg.sound⟩,
      ⟨DStep.refl _, fun _ _ _ h => h, Nat.le_refl _, fun _ h => h, fun m h he => ⟨m, AgreeBelow.refl _ _, h, he⟩⟩,
      ⟨ho.outs, ho.keys⟩, fun _ _ h => h⟩, by simp, rfl⟩
  | some rd =>
    simp only
    have hnode := LawfulTotDb.inner_node _ _ (ho.outs _ rd (ho.keys _ rd hr)).1
    obtain ⟨h1, h2, h3⟩ := collectRange hg ho hroots hr p.2 (List.range' rd.oidx (TotDb.len c.db rd.root - rd.oidx))
      (fun i hi => by rw [List.mem_range'_1] at hi; omega)
    generalize (List.range' rd.oidx (TotDb.len c.db rd.root - rd.oidx)).foldl (collectOut rd p.2) c = c1 at *
    refine ⟨h1, ?_, ?_⟩
    · intro rd' hrd i hi hlt
      simp only [Option.some.injEq] at hrd
      subst hrd
      rw [h1.step.keep.len _ hnode] at hlt
      exact h2 i (by rw [List.mem_range'_1]; omega)
    · rw [h3, List.map_map, h1.step.keep.len _ hnode]
      rfl

theorem OutsFull.run {l : Lit} (ho : OutsOK R c) (h : OutsFull c R l) (hr : CRun n0 R c c') : OutsFull c' R l := by
  intro rd hrd i hi hlt
  have hnode := LawfulTotDb.inner_node _ _ (ho.outs _ rd (ho.keys _ rd hrd)).1
  rw [hr.step.keep.len _ hnode] at hlt
  obtain ⟨h1, h2⟩ := h rd hrd i hi hlt
  have : outL c'.db rd.root i = outL c.db rd.root i := outL_eq (hr.step.held _ _ _ (LawfulInproDb.held_out _ _ _ _ h1))
  rw [this]
  exact ⟨hr.step.keep.out _ _ _ h1, hr.outs _ _ h2⟩

theorem itemsOf_run {p : Lit × Nat} (ho : OutsOK R c) (h : OutsFull c R p.1) (hr : CRun n0 R c c') :
    itemsOf c'.db R p = itemsOf c.db R p := by
  unfold itemsOf
  cases hrd : mapGet p.1 R with
  | none => rfl
  | some rd =>
    simp only
    have hnode := LawfulTotDb.inner_node _ _ (ho.outs _ rd (ho.keys _ rd hrd)).1
    rw [hr.step.keep.len _ hnode]
    refine List.map_congr_left fun i hi => ?_
    rw [List.mem_range'_1] at hi
    obtain ⟨h1, -⟩ := h rd hrd i hi.1 (by omega)
    rw [outL_eq (hr.step.held _ _ _ (LawfulInproDb.held_out _ _ _ _ h1))]

theorem collectLits_run (hg : CGood n0 c) (ho : OutsOK R c) (hroots : (R.map fun p => p.2.root).Nodup) (I : List (Lit × Nat)) :
    CRun n0 R c (I.foldl (collectLit R) c) ∧ (∀ p ∈ I, OutsFull (I.foldl (collectLit R) c) R p.1) ∧
    (I.foldl (collectLit R) c).softs = c.softs ++ (I.flatMap (itemsOf (I.foldl (collectLit R) c).db R)).map softOf := by
  induction I generalizing c with
  | nil => exact ⟨⟨hg, CStep.refl _, ho, fun _ _ h => h⟩, by simp, by simp⟩
  | cons p I ih =>
    obtain ⟨h1, h2, h3⟩ := collectLit_run hg ho hroots p
    obtain ⟨g1, g2, g3⟩ := ih h1.good h1.ok
    simp only [List.foldl_cons]
    refine ⟨h1.trans g1, ?_, ?_⟩
    · intro q hq
      rcases List.mem_cons.1 hq with rfl | hq
      · exact h2.run h1.ok g1
      · exact g2 q hq
    · rw [g3, h3, List.flatMap_cons, List.map_append, itemsOf_run h1.ok h2 g1, List.append_assoc]

/-! ## The objective of the soft clauses -/

theorem wsum_flatMap (f : Lit → Nat) (g : Lit × Nat → List (Lit × Nat)) (I : List (Lit × Nat)) :
    wsum f (I.flatMap g) = (I.map fun p => wsum f (g p)).sum := by
  induction I with
  | nil => rfl
  | cons p I ih => rw [List.flatMap_cons, wsum_append, ih, List.map_cons, List.sum_cons]

theorem sum_range_lt (a k x : Nat) : ((List.range' a k).map fun i => if i < x then 1 else 0).sum = min k (x - a) := by
  induction k generalizing a with
  | zero => simp
  | succ k ih =>
    rw [List.range'_succ, List.map_cons, List.sum_cons, ih]
    split <;> omega

theorem wsum_outs (f : Lit → Nat) (g : Nat → Lit) (h : Nat → Nat) (rd : ReformData) (w N : Nat) (hN : rd.oidx < N)
    (hf : ∀ i, rd.oidx ≤ i → i < N → f (g i) = h i) :
    wsum f ((List.range' rd.oidx (N - rd.oidx)).map fun i => (g i, outW rd w i)) =
      w * h rd.oidx + rd.totWeight * ((List.range' (rd.oidx + 1) (N - (rd.oidx + 1))).map h).sum := by
  have e : N - rd.oidx = N - (rd.oidx + 1) + 1 := by omega
  rw [e, List.range'_succ, List.map_cons]
  unfold wsum
  rw [List.map_cons, List.sum_cons]
  simp only [outW, if_true]
  rw [hf _ (Nat.le_refl _) hN]
  congr 1
  have key : ∀ is : List Nat, (∀ i ∈ is, rd.oidx < i ∧ i < N) →
      ((is.map fun i => (g i, if i = rd.oidx then w else rd.totWeight)).map fun p => p.2 * f p.1).sum =
        rd.totWeight * (is.map h).sum := by
    intro is
    induction is with
    | nil => intro _; simp
    | cons i is ih =>
      intro hi
      obtain ⟨h1, h2⟩ := hi i (by simp)
      simp only [List.map_cons, List.sum_cons]
      rw [ih fun j hj => hi j (by simp [hj]), if_neg (by omega), hf i (by omega) h2, Nat.mul_add]
  exact key _ fun i hi => by rw [List.mem_range'_1] at hi; omega

/-- What is known of the soft clauses of an objective; `K` are their literals, negated, with the weights. -/
structure Items (n0 : Nat) (d : D) (I : List (Lit × Nat)) (R : List (Lit × ReformData)) (c : Coll D) (K : List (Lit × Nat)) :
    Prop where
  softs : c.softs = K.map softOf
  nodup : (K.map Prod.fst).Nodup
  pos : ∀ l w, (l, w) ∈ K → 0 < w
  item : ∀ l w, (l, w) ∈ K → (mapGet l c.outs = none ∧ l.var < n0) ∨ ∃ rd, mapGet l c.outs = some rd ∧
    IsOut c.db rd.root rd.oidx l ∧ w ≤ rd.totWeight
  outs : ∀ l rd, mapGet l c.outs = some rd → Inner c.db rd.root ∧ rd.oidx < TotDb.len c.db rd.root ∧ 0 < rd.totWeight
  up : ∀ l w rd i, (l, w) ∈ K → mapGet l c.outs = some rd → rd.oidx < i → i < TotDb.len c.db rd.root →
    ∃ l', (l', rd.totWeight) ∈ K ∧ mapGet l' c.outs = some { rd with oidx := i }
  uniq : ∀ l l' rd rd', mapGet l c.outs = some rd → mapGet l' c.outs = some rd' → rd.root = rd'.root →
    rd.totWeight = rd'.totWeight ∧ (rd.oidx = rd'.oidx → l = l')
  keep : DKeep d c.db
  val : ∀ t, wsum (litV c.db c.outs t) K = (I.map (litVal d R t)).sum
  max : wsum (fun _ => 1) K = (I.map (litMax d R)).sum

theorem itemsOf_mem {d : D} {p q : Lit × Nat} (h : q ∈ itemsOf d R p) :
    (mapGet p.1 R = none ∧ q = p) ∨ ∃ rd i, mapGet p.1 R = some rd ∧ rd.oidx ≤ i ∧ i < TotDb.len d rd.root ∧
      q = (outL d rd.root i, outW rd p.2 i) := by
  unfold itemsOf at h
  cases hr : mapGet p.1 R with
  | none =>
    rw [hr] at h
    exact .inl ⟨rfl, by simpa using h⟩
  | some rd =>
    rw [hr] at h
    simp only [List.mem_map] at h
    obtain ⟨i, hi, rfl⟩ := h
    rw [List.mem_range'_1] at hi
    exact .inr ⟨rd, i, rfl, hi.1, by omega, rfl⟩

theorem mem_itemsOf {d : D} {p : Lit × Nat} {rd : ReformData} {i : Nat} (hr : mapGet p.1 R = some rd) (h1 : rd.oidx ≤ i)
    (h2 : i < TotDb.len d rd.root) : (outL d rd.root i, outW rd p.2 i) ∈ itemsOf d R p := by
  unfold itemsOf
  rw [hr]
  exact List.mem_map.2 ⟨i, by rw [List.mem_range'_1]; omega, rfl⟩

theorem items_of {pb : Pb} {o : Objective} {I : List (Lit × Nat)} {off : Nat} {d : D} (h : MergeOK pb o d I R off)
    (hroots : (R.map fun p => p.2.root).Nodup)
    (hlew : ∀ l rd w, mapGet l R = some rd → (l, w) ∈ I → w ≤ rd.totWeight) (hk : DKeep d c.db) (hg : CGood pb.n0 c)
    (ho : OutsOK R c) (hfull : ∀ p ∈ I, OutsFull c R p.1)
    (hs : c.softs = (I.flatMap (itemsOf c.db R)).map softOf) :
    Items pb.n0 d I R c (I.flatMap (itemsOf c.db R)) := by
  have hkey : ∀ l w rd, (l, w) ∈ I → mapGet l R = some rd → Node d rd.root ∧ rd.oidx < TotDb.len c.db rd.root ∧
      0 < rd.totWeight ∧ w ≤ rd.totWeight := by
    intro l w rd hl hr
    obtain ⟨h1, h2, h3, -⟩ := h.refs l rd hr
    exact ⟨h1, by rw [hk.len _ h1]; exact h2, h3, hlew l rd w hr hl⟩
  have hbase : ∀ l rd, mapGet l c.outs = some rd → pb.n0 ≤ l.var := fun l rd hl => by
    obtain ⟨h1, h2, -⟩ := ho.outs l rd hl
    exact LawfulInproDb.held_base _ _ _ _ _ hg.base h1 h2
  have hnone : ∀ l w, (l, w) ∈ I → mapGet l R = none → mapGet l c.outs = none ∧ l.var < pb.n0 := by
    intro l w hl hr
    have hv := h.orig l w hl hr
    refine ⟨?_, hv⟩
    cases hc : mapGet l c.outs with
    | none => rfl
    | some rd => have := hbase l rd hc; omega
  have hsome : ∀ (p : Lit × Nat) rd i, p ∈ I → mapGet p.1 R = some rd → rd.oidx ≤ i → i < TotDb.len c.db rd.root →
      IsOut c.db rd.root i (outL c.db rd.root i) ∧ mapGet (outL c.db rd.root i) c.outs = some { rd with oidx := i } :=
    fun p rd i hp hr h1 h2 => hfull p hp rd hr i h1 h2
  have hrootu : ∀ l l' rd rd', mapGet l R = some rd → mapGet l' R = some rd' → rd.root = rd'.root → l = l' ∧ rd = rd' := by
    intro l l' rd rd' h1 h2 he
    have := nodup_mem_unique hroots (mapGet_mem h1) (mapGet_mem h2) he
    simpa using this
  refine ⟨hs, ?_, ?_, ?_, ?_, ?_, ?_, hk, ?_, ?_⟩
  · rw [List.map_flatMap, List.nodup_flatMap]
    refine ⟨fun p hp => ?_, ?_⟩
    · unfold itemsOf
      cases hr : mapGet p.1 R with
      | none => simp
      | some rd =>
        simp only [List.map_map]
        refine List.Nodup.map_on ?_ List.nodup_range'
        intro i hi j hj he
        rw [List.mem_range'_1] at hi hj
        simp only [Function.comp_apply] at he
        obtain ⟨a1, -⟩ := hsome p rd i hp hr hi.1 (by omega)
        obtain ⟨a2, -⟩ := hsome p rd j hp hr hj.1 (by omega)
        rw [he] at a1
        have hin := (ho.outs _ rd (ho.keys _ rd hr)).1
        exact (LawfulTotDb.out_inj _ _ _ _ _ _ hin hin a1 a2).2
    · have hpw : I.Pairwise fun p q => p.1 ≠ q.1 := List.pairwise_map.1 h.keys
      refine List.Pairwise.imp_of_mem ?_ hpw
      intro p q hp hq hne
      rw [Function.onFun, List.disjoint_left]
      intro l hl hl'
      obtain ⟨⟨x, w⟩, h1, rfl⟩ := List.mem_map.1 hl
      obtain ⟨⟨y, w'⟩, h2, h3⟩ := List.mem_map.1 hl'
      simp only at h3
      subst h3
      rcases itemsOf_mem h1 with ⟨r1, e1⟩ | ⟨rd, i, r1, i1, i2, e1⟩ <;>
        rcases itemsOf_mem h2 with ⟨r2, e2⟩ | ⟨rd', j, r2, j1, j2, e2⟩
      · exact hne (by rw [← e1, ← e2])
      · have hv := (hnone p.1 p.2 hp r1).2
        have := hbase _ _ (hsome q rd' j hq r2 j1 j2).2
        rw [← e1] at hv
        simp only [Prod.mk.injEq] at e2
        rw [← e2.1] at this
        simp only at hv
        omega
      · have hv := (hnone q.1 q.2 hq r2).2
        have := hbase _ _ (hsome p rd i hp r1 i1 i2).2
        rw [← e2] at hv
        simp only [Prod.mk.injEq] at e1
        rw [← e1.1] at this
        simp only at hv
        omega
      · simp only [Prod.mk.injEq] at e1 e2
        obtain ⟨a1, -⟩ := hsome p rd i hp r1 i1 i2
        obtain ⟨a2, -⟩ := hsome q rd' j hq r2 j1 j2
        rw [← e1.1] at a1
        rw [← e2.1] at a2
        have hin := (ho.outs _ rd (ho.keys _ rd r1)).1
        have hin' := (ho.outs _ rd' (ho.keys _ rd' r2)).1
        exact hne (hrootu _ _ _ _ r1 r2 (LawfulTotDb.out_inj _ _ _ _ _ _ hin hin' a1 a2).1).1
  · intro l w hl
    obtain ⟨p, hp, hl⟩ := List.mem_flatMap.1 hl
    rcases itemsOf_mem hl with ⟨r1, rfl⟩ | ⟨rd, i, r1, i1, i2, e1⟩
    · exact h.pos l w hp
    · simp only [Prod.mk.injEq] at e1
      rw [e1.2]
      unfold outW
      split
      · exact h.pos p.1 p.2 hp
      · exact (hkey p.1 p.2 rd hp r1).2.2.1
  · intro l w hl
    obtain ⟨p, hp, hl⟩ := List.mem_flatMap.1 hl
    rcases itemsOf_mem hl with ⟨r1, rfl⟩ | ⟨rd, i, r1, i1, i2, e1⟩
    · exact .inl (hnone l w hp r1)
    · simp only [Prod.mk.injEq] at e1
      obtain ⟨a1, a2⟩ := hsome p rd i hp r1 i1 i2
      rw [← e1.1] at a1 a2
      refine .inr ⟨_, a2, a1, ?_⟩
      rw [e1.2]
      unfold outW
      split
      · exact (hkey p.1 p.2 rd hp r1).2.2.2
      · exact Nat.le_refl _
  · intro l rd hl
    obtain ⟨h1, -, h3, l0, rd0, h4, h5⟩ := ho.outs l rd hl
    refine ⟨h1, h3, ?_⟩
    rw [h5]
    exact (h.refs l0 rd0 h4).2.2.1
  · intro l w rd i hl hg1 hi1 hi2
    obtain ⟨p, hp, hl'⟩ := List.mem_flatMap.1 hl
    rcases itemsOf_mem hl' with ⟨r1, rfl⟩ | ⟨rd0, j, r1, j1, j2, e1⟩
    · rw [(hnone l w hp r1).1] at hg1
      simp at hg1
    · simp only [Prod.mk.injEq] at e1
      obtain ⟨a1, a2⟩ := hsome p rd0 j hp r1 j1 j2
      rw [← e1.1, hg1] at a2
      simp only [Option.some.injEq] at a2
      subst a2
      simp only at hi1 hi2 ⊢
      obtain ⟨b1, b2⟩ := hsome p rd0 i hp r1 (by omega) hi2
      refine ⟨_, List.mem_flatMap.2 ⟨p, hp, ?_⟩, b2⟩
      have := mem_itemsOf (p := p) r1 (show rd0.oidx ≤ i by omega) hi2
      unfold outW at this
      rw [if_neg (by omega)] at this
      exact this
  · intro l l' rd rd' h1 h2 he
    obtain ⟨-, a2, -, l0, rd0, a3, a4⟩ := ho.outs l rd h1
    obtain ⟨-, b2, -, l1, rd1, b3, b4⟩ := ho.outs l' rd' h2
    obtain ⟨-, rfl⟩ := hrootu l0 l1 rd0 rd1 a3 b3 (by rw [a4, b4] at he; exact he)
    refine ⟨by rw [a4, b4], fun hi => ?_⟩
    rw [he, hi] at a2
    rw [← outL_eq a2, ← outL_eq b2]
  · intro t
    rw [wsum_flatMap]
    congr 1
    refine List.map_congr_left fun p hp => ?_
    cases hr : mapGet p.1 R with
    | none =>
      have := hnone p.1 p.2 hp hr
      unfold itemsOf litVal litV extra
      simp only [hr]
      have e := wsum_single (fun l => match mapGet l c.outs with
        | some rd => if rd.oidx < cnt c.db rd.root t then 1 else 0
        | none => if l.eval t = true then 1 else 0) p.1 p.2
      rw [this.1] at e
      exact e
    | some rd =>
      obtain ⟨k1, k2, -⟩ := hkey p.1 p.2 rd hp hr
      rw [litVal_some hr]
      unfold itemsOf
      rw [hr]
      simp only
      rw [wsum_outs _ _ (fun i => if i < cnt c.db rd.root t then 1 else 0) rd p.2 _ k2, sum_range_lt]
      · rw [hk.cnt _ _ k1, hk.len _ k1]
        have := LawfulTotDb.cnt_le d rd.root t k1
        congr 2
        omega
      · intro i h1 h2
        unfold litV
        rw [(hsome p rd i hp hr h1 h2).2]
  · rw [wsum_flatMap]
    congr 1
    refine List.map_congr_left fun p hp => ?_
    cases hr : mapGet p.1 R with
    | none =>
      unfold itemsOf litMax extra
      simp only [hr]
      simp [wsum]
    | some rd =>
      obtain ⟨k1, k2, -⟩ := hkey p.1 p.2 rd hp hr
      rw [litMax_some hr]
      unfold itemsOf
      rw [hr]
      simp only
      rw [wsum_outs _ _ (fun _ => 1) rd p.2 _ k2 (fun _ _ _ => rfl)]
      simp [hk.len _ k1]

/-! ## All objectives -/

/-- What is known of an objective before its soft clauses are collected. -/
structure Before (pb : Pb) (n : Nat) (p : Reform × D) : Prop where
  merge : ∃ o, MergeOK pb o p.2 p.1.inactives.iter p.1.refs p.1.offset
  refs : RefOuts pb.n0 p.1 p.2
  below : Below p.2 n
  inputs : Inputs p.2 pb.n0

/-- What is known afterwards, with all clauses `F` and the next free variable `n`. -/
structure After (pb : Pb) (F : List Clause) (n : Nat) (p : Reform × D) (c : Coll D) : Prop where
  items : ∃ K, Items pb.n0 p.2 p.1.inactives.iter p.1.refs c K
  below : Below c.db n
  inputs : Inputs c.db pb.n0
  sound : ∀ m, cnfEval m F = true → Sound c.db m

theorem collectObj_run {pb : Pb} {p : Reform × D} {cnf : List Clause} {n : Nat} (h : Before pb n p) (hn : pb.n0 ≤ n)
    (hv : VarsBelow n cnf) :
    CGood pb.n0 (collectObj cnf n p) ∧ n ≤ (collectObj cnf n p).next ∧
    (∀ m, cnfEval m (collectObj cnf n p).cnf = true → cnfEval m cnf = true) ∧
    (∃ K, Items pb.n0 p.2 p.1.inactives.iter p.1.refs (collectObj cnf n p) K) ∧
    ∀ m, cnfEval m cnf = true → Exact p.2 m → ∃ m', AgreeBelow n m m' ∧ cnfEval m' (collectObj cnf n p).cnf = true ∧
      Exact (collectObj cnf n p).db m' := by
  have hg : CGood pb.n0 (⟨cnf, InproDb.resetEncoded p.2, n, p.1.refs, []⟩ : Coll D) :=
    ⟨hn, LawfulInproDb.enc_below _ _ h.below, LawfulInproDb.enc_inputs _ _ h.inputs, LawfulInproDb.enc_base _ _ h.refs.base, hv,
      fun m _ => LawfulInproDb.enc_sound _ _⟩
  obtain ⟨o, ho⟩ := h.merge
  have hk := LawfulInproDb.enc_keep p.2
  have hok : OutsOK p.1.refs (⟨cnf, InproDb.resetEncoded p.2, n, p.1.refs, []⟩ : Coll D) := by
    refine ⟨fun l rd hl => ?_, fun _ _ h => h⟩
    obtain ⟨h1, h2⟩ := h.refs.outs l rd hl
    have h3 := (ho.refs l rd hl).2.1
    exact ⟨hk.inner _ h1, LawfulInproDb.enc_held _ _ _ _ (LawfulInproDb.held_out _ _ _ _ h2),
      by simp only; rw [hk.len _ (LawfulTotDb.inner_node _ _ h1)]; exact h3, l, rd, hl, rfl⟩
  obtain ⟨h1, h2, h3⟩ := collectLits_run hg hok h.refs.roots p.1.inactives.iter
  rw [List.nil_append] at h3
  refine ⟨h1.good, h1.step.next, h1.step.cnf, ⟨_, items_of ho h.refs.roots h.refs.lew (hk.trans h1.step.keep.toDKeep)
    h1.good h1.ok h2 h3⟩, fun m hm he => h1.step.exact m hm (LawfulInproDb.enc_exact _ _ he)⟩

theorem collectAll_run {pb : Pb} {ps : List (Reform × D)} {cnf : List Clause} {n : Nat} (h : ∀ p ∈ ps, Before pb n p)
    (hn : pb.n0 ≤ n) (hv : VarsBelow n cnf) :
    n ≤ (collectAll cnf n ps).2.1 ∧ VarsBelow (collectAll cnf n ps).2.1 (collectAll cnf n ps).1 ∧
    (∀ m, cnfEval m (collectAll cnf n ps).1 = true → cnfEval m cnf = true) ∧
    List.Forall₂ (After pb (collectAll cnf n ps).1 (collectAll cnf n ps).2.1) ps (collectAll cnf n ps).2.2 ∧
    ∀ m, cnfEval m cnf = true → (∀ p ∈ ps, Exact p.2 m) → ∃ m', AgreeBelow n m m' ∧
      cnfEval m' (collectAll cnf n ps).1 = true ∧ ∀ c ∈ (collectAll cnf n ps).2.2, Exact c.db m' := by
  induction ps generalizing cnf n with
  | nil => exact ⟨Nat.le_refl _, hv, fun _ h => h, .nil, fun m hm _ => ⟨m, AgreeBelow.refl _ _, hm, by simp [collectAll]⟩⟩
  | cons p ps ih =>
    obtain ⟨h1, h2, h3, h4, h5⟩ := collectObj_run (h p (by simp)) hn hv
    obtain ⟨g1, g2, g3, g4, g5⟩ := ih (cnf := (collectObj cnf n p).cnf) (n := (collectObj cnf n p).next)
      (fun q hq => by
        have := h q (by simp [hq])
        exact ⟨this.merge, this.refs, LawfulTotDb.below_mono _ _ _ this.below h2, this.inputs⟩) (Nat.le_trans hn h2) h1.vars
    simp only [collectAll]
    refine ⟨Nat.le_trans h2 g1, g2, fun m hm => h3 m (g3 m hm), .cons ⟨h4, LawfulTotDb.below_mono _ _ _ h1.below g1, h1.inputs,
      fun m hm => h1.sound m (g3 m hm)⟩ g4, fun m hm he => ?_⟩
    obtain ⟨m1, a1, a2, a3⟩ := h5 m hm (he p (by simp))
    obtain ⟨m2, b1, b2, b3⟩ := g5 m1 a2 (fun q hq =>
      LawfulTotDb.exact_local _ _ _ _ (h q (by simp [hq])).below a1 (he q (by simp [hq])))
    refine ⟨m2, a1.trans (b1.mono h2), b2, fun c hc => ?_⟩
    rcases List.mem_cons.1 hc with rfl | hc
    · exact LawfulTotDb.exact_local _ _ _ _ h1.below b1 a3
    · exact b3 c hc

end Scuttle
