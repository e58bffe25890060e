import Verif.Proof.EncLaws
import Verif.Proof.WP

/-!
# The problem as the solver sees it, and the invariant on clauses and encodings
-/

set_option linter.unusedSectionVars false

namespace Scuttle

open Spec

/-! ## Agreement and evaluation -/

theorem AgreeBelow.refl (n : Nat) (m : Asg) : AgreeBelow n m m := fun _ _ => rfl

theorem AgreeBelow.symm {n m m'} (h : AgreeBelow n m m') : AgreeBelow n m' m := fun v hv => (h v hv).symm

theorem AgreeBelow.trans {n m m' m''} (h : AgreeBelow n m m') (h' : AgreeBelow n m' m'') : AgreeBelow n m m'' :=
  fun v hv => (h v hv).trans (h' v hv)

theorem AgreeBelow.mono {n n' m m'} (h : AgreeBelow n' m m') (hn : n ≤ n') : AgreeBelow n m m' :=
  fun v hv => h v (Nat.lt_of_lt_of_le hv hn)

theorem Lit.eval_agree {n m m'} (h : AgreeBelow n m m') {l : Lit} (hl : l.var < n) : l.eval m = l.eval m' := by
  unfold Lit.eval; rw [h _ hl]

theorem clauseEval_agree {n m m'} (h : AgreeBelow n m m') {c : Clause} (hc : LitsBelow n c) :
    clauseEval m c = clauseEval m' c := by
  unfold clauseEval
  induction c with
  | nil => rfl
  | cons l c ih =>
    simp only [List.any_cons]
    rw [Lit.eval_agree h (hc l (by simp)), ih (fun l hl => hc l (by simp [hl]))]

theorem cubeEval_agree {n m m'} (h : AgreeBelow n m m') {c : List Lit} (hc : LitsBelow n c) :
    cubeEval m c = cubeEval m' c := by
  unfold cubeEval
  induction c with
  | nil => rfl
  | cons l c ih =>
    simp only [List.all_cons]
    rw [Lit.eval_agree h (hc l (by simp)), ih (fun l hl => hc l (by simp [hl]))]

theorem cnfEval_agree {n m m'} (h : AgreeBelow n m m') {cs : List Clause} (hc : VarsBelow n cs) :
    cnfEval m cs = cnfEval m' cs := by
  unfold cnfEval
  induction cs with
  | nil => rfl
  | cons c cs ih =>
    simp only [List.all_cons]
    rw [clauseEval_agree h (hc c (by simp)), ih (fun c h' => hc c (by simp [h']))]

@[simp] theorem cnfEval_append (m : Asg) (a b : List Clause) :
    cnfEval m (a ++ b) = true ↔ cnfEval m a = true ∧ cnfEval m b = true := by simp [cnfEval]

@[simp] theorem cubeEval_append (m : Asg) (a b : List Lit) :
    cubeEval m (a ++ b) = true ↔ cubeEval m a = true ∧ cubeEval m b = true := by simp [cubeEval]

@[simp] theorem cubeEval_nil (m : Asg) : cubeEval m [] = true := rfl

@[simp] theorem cnfEval_nil (m : Asg) : cnfEval m [] = true := rfl

theorem cnfEval_singleton (m : Asg) (c : Clause) : cnfEval m [c] = true ↔ clauseEval m c = true := by simp [cnfEval]

@[simp] theorem clauseEval_append (m : Asg) (a b : Clause) :
    clauseEval m (a ++ b) = true ↔ clauseEval m a = true ∨ clauseEval m b = true := by simp [clauseEval]

theorem clauseEval_singleton (m : Asg) (l : Lit) : clauseEval m [l] = true ↔ l.eval m = true := by simp [clauseEval]

theorem cubeEval_singleton (m : Asg) (l : Lit) : cubeEval m [l] = true ↔ l.eval m = true := by simp [cubeEval]

theorem VarsBelow.mono {n n' cs} (h : VarsBelow n cs) (hn : n ≤ n') : VarsBelow n' cs :=
  fun c hc l hl => Nat.lt_of_lt_of_le (h c hc l hl) hn

theorem LitsBelow.mono {n n' cs} (h : LitsBelow n cs) (hn : n ≤ n') : LitsBelow n' cs :=
  fun l hl => Nat.lt_of_lt_of_le (h l hl) hn

theorem VarsBelow.append {n a b} (ha : VarsBelow n a) (hb : VarsBelow n b) : VarsBelow n (a ++ b) := by
  intro c hc
  rcases List.mem_append.1 hc with h | h
  · exact ha c h
  · exact hb c h

theorem LitsBelow.append {n a b} (ha : LitsBelow n a) (hb : LitsBelow n b) : LitsBelow n (a ++ b) := by
  intro c hc
  rcases List.mem_append.1 hc with h | h
  · exact ha c h
  · exact hb c h

theorem VarsBelow.nil (n : Nat) : VarsBelow n [] := by intro c hc; simp at hc

theorem LitsBelow.nil (n : Nat) : LitsBelow n [] := by intro c hc; simp at hc

/-! ## The problem -/

/-- Internal value of an objective. -/
def icost (o : Objective) (t : Asg) : Nat := linear t o.iter

/-- The problem that the solver works on: clauses, objectives, all variables below `n0`, original ones below `nOrig`.
`en` and `blk` are the enumeration option and the clause that is added after a solution was found. -/
structure Pb where
  F : List Clause
  objs : List Objective
  n0 : Nat
  nOrig : Nat
  en : EnumOptions
  blk : Assignment → Option Clause

namespace Pb

/-- Solutions of the clauses. -/
def Sol (pb : Pb) (t : Asg) : Prop := cnfEval t pb.F = true

/-- Internal cost vector. -/
def costs (pb : Pb) (t : Asg) : List Nat := pb.objs.map fun o => icost o t

/-- Variables are in range. -/
structure WF (pb : Pb) : Prop where
  clauses : VarsBelow pb.n0 pb.F
  objs : ∀ o ∈ pb.objs, ∀ p ∈ o.iter, p.1.var < pb.n0
  orig : pb.nOrig ≤ pb.n0

theorem Sol.agree {pb : Pb} (wf : pb.WF) {t t'} (h : AgreeBelow pb.n0 t t') (ht : pb.Sol t) : pb.Sol t' := by
  unfold Sol at *; rw [← cnfEval_agree h wf.clauses]; exact ht

theorem icost_agree {pb : Pb} (wf : pb.WF) {t t'} (h : AgreeBelow pb.n0 t t') {o} (ho : o ∈ pb.objs) :
    icost o t = icost o t' := by
  unfold icost; exact linear_congr fun p hp => h _ (wf.objs o ho p hp)

theorem costs_agree {pb : Pb} (wf : pb.WF) {t t'} (h : AgreeBelow pb.n0 t t') : pb.costs t = pb.costs t' := by
  unfold costs; exact List.map_congr_left fun o ho => icost_agree wf h ho

@[simp] theorem length_costs (pb : Pb) (t : Asg) : (pb.costs t).length = pb.objs.length := by simp [costs]

end Pb

/-- Componentwise order on internal cost vectors. -/
def VLe (a b : List Nat) : Prop := List.Forall₂ (· ≤ ·) a b

theorem VLe.refl (a : List Nat) : VLe a a := by
  induction a with
  | nil => exact .nil
  | cons x a ih => exact .cons (Nat.le_refl _) ih

theorem VLe.trans {a b c : List Nat} (h : VLe a b) (h' : VLe b c) : VLe a c := by
  induction h generalizing c with
  | nil => cases h'; exact .nil
  | cons h1 _ ih => cases h' with | cons h2 h3 => exact .cons (Nat.le_trans h1 h2) (ih h3)

theorem VLe.length_eq {a b : List Nat} (h : VLe a b) : a.length = b.length := List.Forall₂.length_eq h

theorem VLe.antisymm {a b : List Nat} (h : VLe a b) (h' : VLe b a) : a = b := by
  induction h with
  | nil => rfl
  | cons h1 _ ih => cases h' with | cons h2 h3 => rw [Nat.le_antisymm h1 h2, ih h3]

theorem VLe.sum_le {a b : List Nat} (h : VLe a b) : a.sum ≤ b.sum := by
  induction h with
  | nil => simp
  | cons h1 _ ih => simp only [List.sum_cons]; omega

theorem VLe.sum_lt {a b : List Nat} (h : VLe a b) (hne : a ≠ b) : a.sum < b.sum := by
  induction h with
  | nil => exact absurd rfl hne
  | @cons x y a b h1 h2 ih =>
    simp only [List.sum_cons]
    by_cases hxy : x = y
    · subst hxy
      have : a ≠ b := fun h => hne (by rw [h])
      have := ih this; omega
    · have := VLe.sum_le h2; omega

theorem vle_iff_getElem {a b : List Nat} (hl : a.length = b.length) :
    VLe a b ↔ ∀ (i x y : Nat), a[i]? = some x → b[i]? = some y → x ≤ y := by
  unfold VLe
  rw [List.forall₂_iff_get]
  constructor
  · rintro ⟨_, h⟩ i x y hx hy
    obtain ⟨h1, rfl⟩ := List.getElem?_eq_some_iff.1 hx
    obtain ⟨h2, rfl⟩ := List.getElem?_eq_some_iff.1 hy
    exact h i h1 h2
  · intro h
    exact ⟨hl, fun i h1 h2 => h i _ _ (List.getElem?_eq_getElem h1) (List.getElem?_eq_getElem h2)⟩

/-- Solutions that are not dominated. -/
def Pb.NonDom (pb : Pb) (t : Asg) : Prop :=
  pb.Sol t ∧ ∀ t', pb.Sol t' → VLe (pb.costs t') (pb.costs t) → pb.costs t' = pb.costs t

theorem Pb.NonDom.agree {pb : Pb} (wf : pb.WF) {t t'} (h : AgreeBelow pb.n0 t t') (ht : pb.NonDom t) : pb.NonDom t' := by
  refine ⟨ht.1.agree wf h, fun t'' h1 h2 => ?_⟩
  rw [← Pb.costs_agree wf h] at *
  exact ht.2 t'' h1 h2

/-- Below every solution there is one that is not dominated. -/
theorem Pb.exists_nonDom_le (pb : Pb) (t : Asg) (ht : pb.Sol t) : ∃ t', pb.NonDom t' ∧ VLe (pb.costs t') (pb.costs t) := by
  have key : ∀ k t, pb.Sol t → (pb.costs t).sum = k → ∃ t', pb.NonDom t' ∧ VLe (pb.costs t') (pb.costs t) := by
    intro k
    induction k using Nat.strongRecOn with
    | _ k ih =>
      intro t ht hk
      by_cases hnd : pb.NonDom t
      · exact ⟨t, hnd, VLe.refl _⟩
      · unfold Pb.NonDom at hnd
        simp only [not_and] at hnd
        have := hnd ht
        simp only [not_forall] at this
        obtain ⟨t', h1, h2, h3⟩ := this
        have hlt := VLe.sum_lt h2 h3
        obtain ⟨t'', h4, h5⟩ := ih _ (by omega) t' h1 rfl
        exact ⟨t'', h4, h5.trans h2⟩
  exact key _ t ht rfl

/-! ## Encodings of objectives -/

variable {P C : Type} [UbEnc P] [UbEnc C] [LawfulUbEnc P] [LawfulUbEnc C]

namespace ObjEnc

open LawfulUbEnc (val maxVal)

/-- The clauses of the encoding hold and its value is not below the objective. -/
def Sound (o : Objective) : ObjEnc P C → Asg → Prop
  | .weighted e off, m => LawfulUbEnc.Sound e m ∧ icost o m ≤ off + val e m
  | .unweighted e off, m => LawfulUbEnc.Sound e m ∧ icost o m ≤ off + val e m
  | .constant, _ => True

/-- The auxiliary variables of the encoding have their intended values and its value is that of the objective. -/
def Exact (o : Objective) : ObjEnc P C → Asg → Prop
  | .weighted e off, m => LawfulUbEnc.Exact e m ∧ icost o m = off + val e m
  | .unweighted e off, m => LawfulUbEnc.Exact e m ∧ icost o m = off + val e m
  | .constant, _ => True

/-- The bound has been encoded. -/
def Ready : ObjEnc P C → Nat → Prop
  | .weighted e off, b => off ≤ b ∧ LawfulUbEnc.Ready e (b - off)
  | .unweighted e off, b => off ≤ b ∧ LawfulUbEnc.Ready e (b - off)
  | .constant, _ => True

/-- All variables are below `n`. -/
def Below : ObjEnc P C → Nat → Prop
  | .weighted e _, n => LawfulUbEnc.Below e n
  | .unweighted e _, n => LawfulUbEnc.Below e n
  | .constant, _ => True

/-- Value of the encoded function. -/
def value : ObjEnc P C → Asg → Nat
  | .weighted e off, m => off + val e m
  | .unweighted e off, m => off + val e m
  | .constant, _ => 0

/-- Largest value of the encoded function. -/
def top : ObjEnc P C → Nat
  | .weighted e off => off + maxVal e
  | .unweighted e off => off + maxVal e
  | .constant => 0

theorem below_mono {e : ObjEnc P C} {n n'} (h : e.Below n) (hn : n ≤ n') : e.Below n' := by
  cases e with
  | weighted e off => exact LawfulUbEnc.below_mono _ _ _ h hn
  | unweighted e off => exact LawfulUbEnc.below_mono _ _ _ h hn
  | constant => trivial

theorem exact_agree {e : ObjEnc P C} {o n m m'} (hb : e.Below n) (h : AgreeBelow n m m')
    (ho : ∀ p ∈ o.iter, p.1.var < n) (he : e.Exact o m) : e.Exact o m' := by
  have hc : icost o m = icost o m' := linear_congr fun p hp => h _ (ho p hp)
  cases e with
  | weighted e off =>
    exact ⟨LawfulUbEnc.exact_local _ _ _ _ hb h he.1, by
      rw [← hc, ← LawfulUbEnc.val_local _ _ _ _ hb h]; exact he.2⟩
  | unweighted e off =>
    exact ⟨LawfulUbEnc.exact_local _ _ _ _ hb h he.1, by
      rw [← hc, ← LawfulUbEnc.val_local _ _ _ _ hb h]; exact he.2⟩
  | constant => trivial

/-- What `encode_ub_change` guarantees. -/
theorem encodeUbChange_spec (e : ObjEnc P C) (lo hi n : Nat) (hb : e.Below n) :
    let r := e.encodeUbChange lo hi n
    n ≤ r.2.2 ∧ r.1.Below r.2.2 ∧ VarsBelow r.2.2 r.2.1 ∧ r.1.offset = e.offset ∧ r.1.isConstant = e.isConstant ∧
    r.1.top = e.top ∧
    (∀ o m, e.Sound o m → cnfEval m r.2.1 = true → r.1.Sound o m) ∧
    (∀ o m, (∀ p ∈ o.iter, p.1.var < n) → e.Exact o m → ∃ m', AgreeBelow n m m' ∧ cnfEval m' r.2.1 = true ∧
      r.1.Exact o m') ∧
    ((∀ b, e.Ready b → r.1.Ready b) ∧ ∀ m, r.1.value m = e.value m) ∧
    (∀ b, e.offset ≤ b → lo ≤ b → b < hi → r.1.Ready b) := by
  cases e with
  | weighted e off =>
    refine ⟨LawfulUbEnc.encode_next _ _ _ _ hb, LawfulUbEnc.encode_below _ _ _ _ hb, LawfulUbEnc.encode_vars _ _ _ _ hb,
      rfl, rfl, ?_, ?_, ?_, ?_, ?_⟩
    · simp only [top, encodeUbChange, LawfulUbEnc.encode_maxVal]
    · rintro o m ⟨h1, h2⟩ h3
      exact ⟨LawfulUbEnc.encode_sound _ _ _ _ _ hb h1 h3, by rw [LawfulUbEnc.encode_val]; exact h2⟩
    · rintro o m ho ⟨h1, h2⟩
      obtain ⟨m', h3, h4, h5⟩ := LawfulUbEnc.encode_exact e (lo - off) (hi - off) n m hb h1
      refine ⟨m', h3, h4, h5, ?_⟩
      rw [LawfulUbEnc.encode_val, ← LawfulUbEnc.val_local _ _ _ _ hb h3, ← h2]
      exact (linear_congr fun p hp => h3 _ (ho p hp)).symm
    · refine ⟨?_, fun m => by simp only [value, encodeUbChange, LawfulUbEnc.encode_val]⟩
      rintro b ⟨h1, h2⟩
      exact ⟨h1, LawfulUbEnc.encode_ready_mono _ _ _ _ _ h2⟩
    · intro b h1 h2 h3
      simp only [offset] at h1
      exact ⟨h1, LawfulUbEnc.encode_ready _ _ _ _ _ (by omega) (by omega)⟩
  | unweighted e off =>
    refine ⟨LawfulUbEnc.encode_next _ _ _ _ hb, LawfulUbEnc.encode_below _ _ _ _ hb, LawfulUbEnc.encode_vars _ _ _ _ hb,
      rfl, rfl, ?_, ?_, ?_, ?_, ?_⟩
    · simp only [top, encodeUbChange, LawfulUbEnc.encode_maxVal]
    · rintro o m ⟨h1, h2⟩ h3
      exact ⟨LawfulUbEnc.encode_sound _ _ _ _ _ hb h1 h3, by rw [LawfulUbEnc.encode_val]; exact h2⟩
    · rintro o m ho ⟨h1, h2⟩
      obtain ⟨m', h3, h4, h5⟩ := LawfulUbEnc.encode_exact e (lo - off) (hi - off) n m hb h1
      refine ⟨m', h3, h4, h5, ?_⟩
      rw [LawfulUbEnc.encode_val, ← LawfulUbEnc.val_local _ _ _ _ hb h3, ← h2]
      exact (linear_congr fun p hp => h3 _ (ho p hp)).symm
    · refine ⟨?_, fun m => by simp only [value, encodeUbChange, LawfulUbEnc.encode_val]⟩
      rintro b ⟨h1, h2⟩
      exact ⟨h1, LawfulUbEnc.encode_ready_mono _ _ _ _ _ h2⟩
    · intro b h1 h2 h3
      simp only [offset] at h1
      exact ⟨h1, LawfulUbEnc.encode_ready _ _ _ _ _ (by omega) (by omega)⟩
  | constant =>
    refine ⟨Nat.le_refl _, trivial, VarsBelow.nil _, rfl, rfl, rfl, fun _ _ _ _ => trivial, ?_, ⟨fun _ _ => trivial, fun _ => rfl⟩,
      fun _ _ _ _ => trivial⟩
    intro o m _ _
    exact ⟨m, AgreeBelow.refl _ _, rfl, trivial⟩

/-- Extending an encoding keeps the meaning of its variables. -/
theorem encodeUbChange_exact (e : ObjEnc P C) (lo hi n : Nat) {o : Objective} {m : Asg}
    (h : (e.encodeUbChange lo hi n).1.Exact o m) : e.Exact o m := by
  cases e with
  | weighted e off =>
    obtain ⟨h1, h2⟩ := h
    exact ⟨LawfulUbEnc.encode_exact_mono _ _ _ _ _ h1, by rw [LawfulUbEnc.encode_val] at h2; exact h2⟩
  | unweighted e off =>
    obtain ⟨h1, h2⟩ := h
    exact ⟨LawfulUbEnc.encode_exact_mono _ _ _ _ _ h1, by rw [LawfulUbEnc.encode_val] at h2; exact h2⟩
  | constant => trivial

/-- What `enforce_ub` guarantees. -/
theorem enforceUb_spec (e : ObjEnc P C) (b n : Nat) (hr : e.Ready b) (hb : e.Below n) :
    ∃ ls, e.enforceUb b = some ls ∧ LitsBelow n ls ∧
    (∀ o m, e.isConstant = false → e.Sound o m → cubeEval m ls = true → icost o m ≤ b) ∧
    (∀ o m, e.Exact o m → icost o m ≤ b → cubeEval m ls = true) ∧
    (e.top ≤ b → ls = []) ∧ (e.isConstant = true → ls = []) := by
  cases e with
  | weighted e off =>
    obtain ⟨h1, h2⟩ := hr
    obtain ⟨ls, h3, h4⟩ := LawfulUbEnc.enforce_ok e (b - off) n h2 hb
    refine ⟨ls, by simp only [enforceUb, if_pos h1, h3], h4, ?_, ?_, ?_, by simp [isConstant]⟩
    · rintro o m _ ⟨h5, h6⟩ h7
      have := LawfulUbEnc.enforce_sound _ _ _ _ h2 h3 h5 h7
      omega
    · rintro o m ⟨h5, h6⟩ h7
      exact LawfulUbEnc.enforce_exact _ _ _ _ h2 h3 h5 (by omega)
    · intro h
      simp only [top] at h
      have := LawfulUbEnc.enforce_max e (b - off) h2 (by omega)
      rw [h3] at this; simpa using this
  | unweighted e off =>
    obtain ⟨h1, h2⟩ := hr
    obtain ⟨ls, h3, h4⟩ := LawfulUbEnc.enforce_ok e (b - off) n h2 hb
    refine ⟨ls, by simp only [enforceUb, if_pos h1, h3], h4, ?_, ?_, ?_, by simp [isConstant]⟩
    · rintro o m _ ⟨h5, h6⟩ h7
      have := LawfulUbEnc.enforce_sound _ _ _ _ h2 h3 h5 h7
      omega
    · rintro o m ⟨h5, h6⟩ h7
      exact LawfulUbEnc.enforce_exact _ _ _ _ h2 h3 h5 (by omega)
    · intro h
      simp only [top] at h
      have := LawfulUbEnc.enforce_max e (b - off) h2 (by omega)
      rw [h3] at this; simpa using this
  | constant =>
    exact ⟨[], rfl, LitsBelow.nil _, by simp [isConstant], fun _ _ _ _ => rfl, fun _ => rfl, fun _ => rfl⟩

end ObjEnc

/-! ## The invariant -/

/-- `e` may be used for objective `o`: the offset is a lower bound, and a constant encoding is only used for an
objective that is constant on all solutions. -/
structure EncFor (pb : Pb) (e : ObjEnc P C) (o : Objective) : Prop where
  offset : ∀ t, pb.Sol t → e.offset ≤ icost o t
  const : e.isConstant = true → ∃ K, ∀ t, pb.Sol t → icost o t = K

/-- An assignment that satisfies the clauses in the oracle and gives every auxiliary variable of the encodings its
intended value. -/
structure XModel (s : Slv P C) (m : Asg) : Prop where
  db : cnfEval m s.k.db = true
  exact : ∀ (i : Nat) (e : ObjEnc P C) (o : Objective), s.encs[i]? = some e → s.k.objs[i]? = some o → e.Exact o m

/-- Invariant on the clauses in the oracle and the encodings: the clauses allow exactly the solutions with `A`. -/
structure DBInv (pb : Pb) (A : Asg → Prop) (s : Slv P C) : Prop where
  objs : s.k.objs = pb.objs
  len : s.encs.length = pb.objs.length
  next : pb.n0 ≤ s.k.vm.nextVar
  origVar : s.k.vm.maxOrigVar + 1 = pb.nOrig
  encVar : s.k.vm.maxEncVar + 1 = pb.n0
  dbVars : VarsBelow s.k.vm.nextVar s.k.db
  below : ∀ (i : Nat) (e : ObjEnc P C), s.encs[i]? = some e → e.Below s.k.vm.nextVar
  encFor : ∀ (i : Nat) (e : ObjEnc P C) (o : Objective), s.encs[i]? = some e → pb.objs[i]? = some o → EncFor pb e o
  sound : ∀ m, cnfEval m s.k.db = true → pb.Sol m ∧ A m
  encSound : ∀ m, cnfEval m s.k.db = true → ∀ (i : Nat) (e : ObjEnc P C) (o : Objective),
    s.encs[i]? = some e → pb.objs[i]? = some o → e.Sound o m
  ext : ∀ t, pb.Sol t → A t → ∃ m, AgreeBelow pb.n0 t m ∧ XModel s m
  unlimited : s.k.conflLimited = false

/-- What does not change at all. -/
structure Frame (s s' : Slv P C) : Prop where
  front : s'.front = s.front
  opts : s'.k.opts = s.k.opts
  bcg : s'.k.bcg = s.k.bcg
  origCnf : s'.k.origCnf = s.k.origCnf
  fence : s'.fence = s.fence

theorem Frame.refl (s : Slv P C) : Frame s s := ⟨rfl, rfl, rfl, rfl, rfl⟩

theorem Frame.trans {s s' s'' : Slv P C} (h : Frame s s') (h' : Frame s' s'') : Frame s s'' :=
  ⟨h'.front.trans h.front, h'.opts.trans h.opts, h'.bcg.trans h.bcg, h'.origCnf.trans h.origCnf, h'.fence.trans h.fence⟩

/-- Encodings are only extended. -/
structure EncStep (s s' : Slv P C) : Prop where
  len : s'.encs.length = s.encs.length
  enc : ∀ (i : Nat) (e : ObjEnc P C), s.encs[i]? = some e → ∃ e', s'.encs[i]? = some e' ∧ e'.offset = e.offset ∧
    e'.isConstant = e.isConstant ∧ e'.top = e.top ∧ (∀ b, e.Ready b → e'.Ready b) ∧ ∀ m, e'.value m = e.value m
  exact : ∀ (i : Nat) (e e' : ObjEnc P C), s.encs[i]? = some e → s'.encs[i]? = some e' → ∀ o m, e'.Exact o m → e.Exact o m

theorem EncStep.of_encs {s s' : Slv P C} (h : s'.encs = s.encs) : EncStep s s' :=
  ⟨by rw [h], fun _ e he => ⟨e, by rw [h]; exact he, rfl, rfl, rfl, fun _ h => h, fun _ => rfl⟩, fun _ e e' he he' _ _ hm => by
    rw [h, he, Option.some.injEq] at he'; subst he'; exact hm⟩

theorem EncStep.refl (s : Slv P C) : EncStep s s := .of_encs rfl

theorem EncStep.trans {s s' s'' : Slv P C} (h : EncStep s s') (h' : EncStep s' s'') : EncStep s s'' := by
  refine ⟨h'.len.trans h.len, fun i e he => ?_, fun i e e'' he he'' o m hm => ?_⟩
  swap
  · obtain ⟨e', h1, -⟩ := h.enc i e he
    exact h.exact i e e' he h1 o m (h'.exact i e' e'' h1 he'' o m hm)
  obtain ⟨e', h1, h2, h3, h4, h5, h6⟩ := h.enc i e he
  obtain ⟨e'', g1, g2, g3, g4, g5, g6⟩ := h'.enc i e' h1
  exact ⟨e'', g1, g2.trans h2, g3.trans h3, g4.trans h4, fun b hb => g5 b (h5 b hb), fun m => (g6 m).trans (h6 m)⟩

/-- Clauses and variables are only added. -/
structure Grow (s s' : Slv P C) : Prop where
  frame : Frame s s'
  enc : EncStep s s'
  next : s.k.vm.nextVar ≤ s'.k.vm.nextVar
  db : ∃ cs, s'.k.db = s.k.db ++ cs

theorem Grow.refl (s : Slv P C) : Grow s s := ⟨Frame.refl s, EncStep.refl s, Nat.le_refl _, ⟨[], by simp⟩⟩

theorem Grow.trans {s s' s'' : Slv P C} (h : Grow s s') (h' : Grow s' s'') : Grow s s'' := by
  refine ⟨h.frame.trans h'.frame, h.enc.trans h'.enc, Nat.le_trans h.next h'.next, ?_⟩
  obtain ⟨a, ha⟩ := h.db
  obtain ⟨b, hb⟩ := h'.db
  exact ⟨a ++ b, by rw [hb, ha, List.append_assoc]⟩

theorem Grow.dbEval {s s' : Slv P C} (h : Grow s s') {m} (hm : cnfEval m s'.k.db = true) : cnfEval m s.k.db = true := by
  obtain ⟨cs, hcs⟩ := h.db
  rw [hcs, cnfEval_append] at hm
  exact hm.1

/-- From `s` to `s'` only auxiliary variables and clauses about them were added. -/
structure Step (s s' : Slv P C) : Prop extends Grow s s' where
  ext : ∀ m, XModel s m → ∃ m', AgreeBelow s.k.vm.nextVar m m' ∧ XModel s' m'

theorem Step.refl (s : Slv P C) : Step s s := ⟨Grow.refl s, fun m h => ⟨m, AgreeBelow.refl _ _, h⟩⟩

theorem Step.trans {s s' s'' : Slv P C} (h : Step s s') (h' : Step s' s'') : Step s s'' := by
  refine ⟨h.toGrow.trans h'.toGrow, ?_⟩
  intro m hm
  obtain ⟨m', h1, h2⟩ := h.ext m hm
  obtain ⟨m'', h3, h4⟩ := h'.ext m' h2
  exact ⟨m'', h1.trans (h3.mono h.next), h4⟩

end Scuttle
