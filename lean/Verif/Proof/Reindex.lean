import Verif.Proof.Prepro
import Verif.Props.Blocking
import Verif.Proof.Init

/-!
# Lemmas on reindexing
-/

namespace Scuttle

open Spec

/-! ## Names of literals -/

/-- `l'` is the new name of `l`. -/
def Renamed (r : Reindexer) (l l' : Lit) : Prop := mapGet l.var r.inMap = some l'.var ∧ l'.neg = l.neg

/-- Later states of a reindexer know at least the same names. -/
structure Reindexer.Ext (r r' : Reindexer) : Prop where
  map : ∀ v o, mapGet v r.inMap = some o → mapGet v r'.inMap = some o
  old : r'.oldMaxOrigVar = r.oldMaxOrigVar

theorem Reindexer.Ext.refl (r : Reindexer) : r.Ext r := ⟨fun _ _ h => h, rfl⟩

theorem Reindexer.Ext.trans {r r' r'' : Reindexer} (h : r.Ext r') (h' : r'.Ext r'') : r.Ext r'' :=
  ⟨fun v o hv => h'.map v o (h.map v o hv), h'.old.trans h.old⟩

theorem Renamed.ext {r r' : Reindexer} {l l' : Lit} (h : Renamed r l l') (he : r.Ext r') : Renamed r' l l' :=
  ⟨he.map _ _ h.1, h.2⟩

theorem reindexLit_spec (r : Reindexer) (h : r.Inv) (l : Lit) :
    (r.reindexLit l).2.Inv ∧ r.Ext (r.reindexLit l).2 ∧ Renamed (r.reindexLit l).2 l (r.reindexLit l).1 := by
  obtain ⟨h1, h2, h3, -⟩ := r.reindex_spec h l.var
  simp only [Reindexer.reindexLit]
  refine ⟨h1, ⟨h3, ?_⟩, h2, rfl⟩
  unfold Reindexer.reindex
  split <;> rfl

theorem reindexTerms_spec (ts : List (Lit × Nat)) (r : Reindexer) (h : r.Inv) :
    (reindexTerms ts r).2.Inv ∧ r.Ext (reindexTerms ts r).2 ∧
    List.Forall₂ (fun t t' => t'.2 = t.2 ∧ Renamed (reindexTerms ts r).2 t.1 t'.1) ts (reindexTerms ts r).1 := by
  induction ts generalizing r with
  | nil => exact ⟨h, .refl r, .nil⟩
  | cons t ts ih =>
    obtain ⟨l, w⟩ := t
    obtain ⟨a1, a2, a3⟩ := reindexLit_spec r h l
    obtain ⟨b1, b2, b3⟩ := ih _ a1
    simp only [reindexTerms]
    exact ⟨b1, a2.trans b2, .cons ⟨rfl, a3.ext b2⟩ b3⟩

theorem reindexClause_spec (c : Clause) (r : Reindexer) (h : r.Inv) :
    (reindexClause c r).2.Inv ∧ r.Ext (reindexClause c r).2 ∧
    List.Forall₂ (Renamed (reindexClause c r).2) c (reindexClause c r).1 := by
  induction c generalizing r with
  | nil => exact ⟨h, .refl r, .nil⟩
  | cons l c ih =>
    obtain ⟨a1, a2, a3⟩ := reindexLit_spec r h l
    obtain ⟨b1, b2, b3⟩ := ih _ a1
    simp only [reindexClause]
    exact ⟨b1, a2.trans b2, .cons (a3.ext b2) b3⟩

theorem reindexClauses_spec (cs : List Clause) (r : Reindexer) (h : r.Inv) :
    (reindexClauses cs r).2.Inv ∧ r.Ext (reindexClauses cs r).2 ∧
    List.Forall₂ (List.Forall₂ (Renamed (reindexClauses cs r).2)) cs (reindexClauses cs r).1 := by
  induction cs generalizing r with
  | nil => exact ⟨h, .refl r, .nil⟩
  | cons c cs ih =>
    obtain ⟨a1, a2, a3⟩ := reindexClause_spec c r h
    obtain ⟨b1, b2, b3⟩ := ih _ a1
    simp only [reindexClauses]
    exact ⟨b1, a2.trans b2, .cons (a3.imp fun _ _ h => h.ext b2) b3⟩

/-- The objective `o'` is `o` with new names, as far as the code keeps it. -/
def ObjRenamed (r : Reindexer) (o o' : Objective) : Prop :=
  ∃ ts, o' = Objective.new ts o.offset o.idx ∧
    List.Forall₂ (fun t t' => t'.2 = t.2 ∧ Renamed r t.1 t'.1) o.iter ts

theorem ObjRenamed.ext {r r' : Reindexer} {o o' : Objective} (h : ObjRenamed r o o') (he : r.Ext r') :
    ObjRenamed r' o o' := by
  obtain ⟨ts, h1, h2⟩ := h
  exact ⟨ts, h1, h2.imp fun _ _ h => ⟨h.1, h.2.ext he⟩⟩

theorem reindexObjs_spec (os : List Objective) (r : Reindexer) (h : r.Inv) :
    (reindexObjs os r).2.Inv ∧ r.Ext (reindexObjs os r).2 ∧
    List.Forall₂ (ObjRenamed (reindexObjs os r).2) os (reindexObjs os r).1 := by
  induction os generalizing r with
  | nil => exact ⟨h, .refl r, .nil⟩
  | cons o os ih =>
    obtain ⟨a1, a2, a3⟩ := reindexTerms_spec o.iter r h
    obtain ⟨b1, b2, b3⟩ := ih _ a1
    simp only [reindexObjs]
    exact ⟨b1, a2.trans b2, .cons (ObjRenamed.ext ⟨_, rfl, a3⟩ b2) b3⟩

/-- What `reindexing` computes. -/
structure ReindexData (inst : Instance) (r : Reindexer) (inst' : Instance) : Prop where
  inv : r.Inv
  old : r.oldMaxOrigVar = inst.vm.maxOrigVar
  pos : 0 < r.nextVar
  vm : inst'.vm = ⟨r.nextVar, r.nextVar - 1, r.nextVar - 1⟩
  clauses : List.Forall₂ (List.Forall₂ (Renamed r)) inst.clauses inst'.clauses
  objs : List.Forall₂ (ObjRenamed r) inst.objs inst'.objs

theorem reindexing_data {inst inst' : Instance} {r : Reindexer} (h : reindexing inst = some (r, inst')) :
    ReindexData inst r inst' := by
  unfold reindexing at h
  obtain ⟨a1, a2, a3⟩ := reindexObjs_spec inst.objs _ (Reindexer.new_inv inst.vm.maxOrigVar)
  obtain ⟨b1, b2, b3⟩ := reindexClauses_spec inst.clauses _ a1
  simp only at h
  generalize hq : reindexObjs inst.objs (Reindexer.new inst.vm.maxOrigVar) = q at *
  obtain ⟨objs, r1⟩ := q
  simp only at h a1 a2 a3 b1 b2 b3
  generalize hq2 : reindexClauses inst.clauses r1 = q2 at *
  obtain ⟨clauses, r2⟩ := q2
  simp only at h b1 b2 b3
  split at h
  · simp at h
  · next v hv =>
    simp only [Reindexer.maxVar] at hv
    split at hv
    · simp at hv
    · next hne =>
      simp only [Option.some.injEq] at hv
      subst hv
      simp only [VarManager.new, ge_iff_le, le_refl, if_true, Option.map_some, Option.some.injEq, Prod.mk.injEq] at h
      obtain ⟨rfl, rfl⟩ := h
      refine ⟨b1, (a2.trans b2).old, by omega, ?_, b3, a3.imp fun _ _ h => h.ext b2⟩
      simp only
      congr 1
      omega

/-! ## Corresponding assignments -/

/-- Assignments of the old and the new instance that give the same values to variables that have a new name. -/
def Corr (r : Reindexer) (s s' : Asg) : Prop := ∀ v o, mapGet v r.inMap = some o → s v = s' o

theorem Corr.lit {r : Reindexer} {s s' : Asg} (h : Corr r s s') {l l' : Lit} (hl : Renamed r l l') :
    LitTrue s' l' ↔ LitTrue s l := by
  unfold LitTrue
  rw [h _ _ hl.1, hl.2]

theorem Corr.clause {r : Reindexer} {s s' : Asg} (h : Corr r s s') {c c' : Clause}
    (hc : List.Forall₂ (Renamed r) c c') : (∃ l ∈ c', LitTrue s' l) ↔ ∃ l ∈ c, LitTrue s l := by
  induction hc with
  | nil => simp
  | cons hl _ ih => simp only [List.mem_cons, exists_eq_or_imp, ih, h.lit hl]

theorem Corr.feasible {r : Reindexer} {s s' : Asg} (h : Corr r s s') {inst inst' : Instance}
    (hd : ReindexData inst r inst') : (problem inst').Feasible s' ↔ (problem inst).Feasible s := by
  unfold Problem.Feasible problem
  have hc := hd.clauses
  simp only
  generalize inst.clauses = cs at hc
  generalize inst'.clauses = cs' at hc
  induction hc with
  | nil => simp
  | cons hl _ ih => simp only [List.forall_mem_cons, ih, h.clause hl]

theorem Corr.linear {r : Reindexer} {s s' : Asg} (h : Corr r s s') {ts ts' : List (Lit × Nat)}
    (ht : List.Forall₂ (fun t t' => t'.2 = t.2 ∧ Renamed r t.1 t'.1) ts ts') : linear s' ts' = linear s ts := by
  induction ht with
  | nil => rfl
  | @cons t t' ts ts' hl _ ih =>
    obtain ⟨l, w⟩ := t
    obtain ⟨l', w'⟩ := t'
    obtain ⟨rfl, hl⟩ := hl
    simp only [Spec.linear, ih, h.lit hl]

theorem renamed_inj {r : Reindexer} (hi : r.Inv) {l1 l2 l : Lit} (h1 : Renamed r l1 l) (h2 : Renamed r l2 l) : l1 = l2 := by
  have a := (hi.inv _ _).1 h1.1
  have b := (hi.inv _ _).1 h2.1
  rw [a] at b
  obtain ⟨v1, n1⟩ := l1
  obtain ⟨v2, n2⟩ := l2
  have c := h1.2
  have d := h2.2
  simp_all

theorem renamed_nodup {r : Reindexer} (hi : r.Inv) {ts ts' : List (Lit × Nat)}
    (ht : List.Forall₂ (fun t t' => t'.2 = t.2 ∧ Renamed r t.1 t'.1) ts ts') (hd : (ts.map Prod.fst).Nodup) :
    (ts'.map Prod.fst).Nodup := by
  induction ht with
  | nil => simp
  | @cons t t' ts ts' hl hf ih =>
    simp only [List.map_cons, List.nodup_cons] at hd ⊢
    refine ⟨?_, ih hd.2⟩
    intro hm
    apply hd.1
    obtain ⟨u', hu', he⟩ := List.mem_map.1 hm
    obtain ⟨u, hu, hr⟩ : ∃ u ∈ ts, Renamed r u.1 u'.1 := by
      clear ih hd hm
      induction hf with
      | nil => simp at hu'
      | @cons a b as bs hab _ ih2 =>
        rcases List.mem_cons.1 hu' with rfl | h'
        · exact ⟨a, by simp, hab.2⟩
        · obtain ⟨q', hq', hh⟩ := ih2 h'
          exact ⟨q', by simp [hq'], hh⟩
    rw [he] at hr
    rw [renamed_inj hi hl.2 hr]
    exact List.mem_map.2 ⟨u, hu, rfl⟩

theorem objLits_iter (o : Objective) : o.iter.map Prod.fst = objLits o := by
  cases o <;> simp [Objective.iter, objLits, Function.comp_def]

theorem internalCost_eq (o : Objective) (s : Asg) : internalCost o s = linear s o.iter := by
  cases o <;> simp [internalCost, Objective.iter, linear]

theorem objValue_internal (o : Objective) (s : Asg) :
    objValue o s = o.offset + o.unitWeight * internalCost o s := by
  cases o <;> simp [internalCost, objValue, Objective.offset, Objective.unitWeight]

theorem Corr.obj {r : Reindexer} {s s' : Asg} (h : Corr r s s') (hi : r.Inv) {o o' : Objective}
    (hn : (objLits o).Nodup) (ho : ObjRenamed r o o') :
    objValue o' s' = o.offset + internalCost o s ∧ o'.offset = o.offset ∧ o'.idx = o.idx := by
  obtain ⟨ts, rfl, ht⟩ := ho
  rw [← objLits_iter] at hn
  obtain ⟨h1, -, h3, h4⟩ := objective_new_spec ts o.offset o.idx (renamed_nodup hi ht hn)
  exact ⟨by rw [h1, h.linear ht, internalCost_eq], h3, h4⟩

/-- The assignment of the new instance that corresponds to one of the old instance. -/
def pushAsg (r : Reindexer) (s : Asg) : Asg := fun o => match r.outMap[o]? with | some v => s v | none => false

theorem pushAsg_corr {r : Reindexer} (hi : r.Inv) (s : Asg) : Corr r s (pushAsg r s) := by
  intro v o h
  have := (hi.inv v o).1 h
  simp [pushAsg, this]

/-- The assignment of the old instance that corresponds to one of the new instance, and is like `s` elsewhere. -/
def pullAsg (r : Reindexer) (s' s : Asg) : Asg := fun v => match mapGet v r.inMap with | some o => s' o | none => s v

theorem pullAsg_corr (r : Reindexer) (s' s : Asg) : Corr r (pullAsg r s' s) s' := by
  intro v o h
  simp [pullAsg, h]

/-! ## Converted solutions -/

theorem assignLit_get (a : Assignment) (l : Lit) (v : Nat) (b : Bool) :
    (a.assignLit l)[v]? = some (TV.ofBool b) ↔
      if v = l.var then b = !l.neg else a[v]? = some (TV.ofBool b) := by
  unfold Assignment.assignLit
  simp only
  rw [List.getElem?_set]
  by_cases h : l.var = v
  · subst h
    have hlen : l.var < (a ++ List.replicate (l.var + 1 - a.length) TV.dc).length := by
      simp only [List.length_append, List.length_replicate]; omega
    rw [if_pos rfl, if_pos rfl, if_pos hlen]
    simp only [Option.some.injEq]
    cases b <;> cases l.neg <;> simp [TV.ofBool]
  · rw [if_neg h, if_neg (Ne.symm h)]
    rw [List.getElem?_append]
    split
    · rfl
    · next hlt =>
      rw [List.getElem?_eq_none (by omega : a.length ≤ v)]
      rw [List.getElem?_replicate]
      split <;> cases b <;> simp [TV.ofBool]

theorem ofLits_get_aux (ls : List Lit) (a : Assignment) (v : Nat) (b : Bool)
    (hc : ∀ l ∈ ls, ∀ l' ∈ ls, l.var = l'.var → l = l') :
    (ls.foldl Assignment.assignLit a)[v]? = some (TV.ofBool b) ↔
      (⟨v, !b⟩ : Lit) ∈ ls ∨ ((∀ l ∈ ls, l.var ≠ v) ∧ a[v]? = some (TV.ofBool b)) := by
  induction ls generalizing a with
  | nil => simp
  | cons l ls ih =>
    simp only [List.foldl_cons]
    rw [ih _ (fun l1 h1 l2 h2 => hc l1 (by simp [h1]) l2 (by simp [h2])), assignLit_get]
    by_cases h : v = l.var
    · rw [if_pos h]
      subst h
      have key : (⟨l.var, !b⟩ : Lit) ∈ l :: ls ↔ b = !l.neg := by
        constructor
        · intro hm
          have := hc l (by simp) _ hm rfl
          rw [this]; simp
        · rintro rfl; simp
      rw [key]
      constructor
      · rintro (h' | ⟨-, h'⟩)
        · exact .inl (key.1 (by simp [h']))
        · exact .inl h'
      · rintro (h' | ⟨h', -⟩)
        · by_cases hex : ∀ l' ∈ ls, l'.var ≠ l.var
          · exact .inr ⟨hex, h'⟩
          · push_neg at hex
            obtain ⟨l', hl', he⟩ := hex
            have := hc l' (by simp [hl']) l (by simp) he
            subst this
            left
            subst h'
            simpa using hl'
        · exact absurd rfl (h' l (by simp))
    · rw [if_neg h]
      have h1 : (⟨v, !b⟩ : Lit) ∈ l :: ls ↔ (⟨v, !b⟩ : Lit) ∈ ls := by
        simp only [List.mem_cons, or_iff_right_iff_imp]
        rintro rfl
        exact absurd rfl h
      rw [h1]
      simp [List.forall_mem_cons, Ne.symm h]

theorem ofLits_get (ls : List Lit) (v : Nat) (b : Bool) (hc : ∀ l ∈ ls, ∀ l' ∈ ls, l.var = l'.var → l = l') :
    (Assignment.ofLits ls)[v]? = some (TV.ofBool b) ↔ (⟨v, !b⟩ : Lit) ∈ ls := by
  unfold Assignment.ofLits
  rw [ofLits_get_aux ls [] v b hc]
  simp

theorem reverseLit_iff {r : Reindexer} (hi : r.Inv) (l l' : Lit) : r.reverseLit l = some l' ↔ Renamed r l' l := by
  unfold Reindexer.reverseLit Reindexer.reverse Renamed
  rw [hi.inv]
  obtain ⟨v, n⟩ := l
  obtain ⟨v', n'⟩ := l'
  simp only
  split
  · next h => simp [List.getElem?_eq_none h]
  · simp only [Option.map_eq_some_iff, Lit.mk.injEq]
    constructor
    · rintro ⟨a, h1, rfl, rfl⟩; exact ⟨h1, rfl⟩
    · rintro ⟨h1, rfl⟩; exact ⟨v', h1, rfl, rfl⟩

/-- The values in a converted solution. -/
theorem convert_get {r : Reindexer} (hi : r.Inv) (sol : Assignment) (v : Nat) (b : Bool) :
    (r.convert sol)[v]? = some (TV.ofBool b) ↔
      v ≤ r.oldMaxOrigVar ∧ ∃ o, mapGet v r.inMap = some o ∧ sol[o]? = some (TV.ofBool b) := by
  unfold Reindexer.convert Assignment.truncate
  rw [List.getElem?_take]
  have hmem : ∀ l, l ∈ sol.toLits.filterMap r.reverseLit ↔ ∃ l' ∈ sol.toLits, Renamed r l l' := by
    intro l
    rw [List.mem_filterMap]
    simp only [reverseLit_iff hi]
  have hc : ∀ l ∈ sol.toLits.filterMap r.reverseLit, ∀ l' ∈ sol.toLits.filterMap r.reverseLit,
      l.var = l'.var → l = l' := by
    intro l hl l' hl' he
    obtain ⟨a, ha, hr⟩ := (hmem l).1 hl
    obtain ⟨a', ha', hr'⟩ := (hmem l').1 hl'
    rw [mem_toLits] at ha ha'
    have h1 := hr.1
    have h2 := hr'.1
    rw [he, h2] at h1
    simp only [Option.some.injEq] at h1
    rw [h1, ha, Option.some.injEq] at ha'
    obtain ⟨v1, n1⟩ := l
    obtain ⟨v2, n2⟩ := l'
    have h3 := hr.2
    have h4 := hr'.2
    simp only at he h3 h4
    rw [h3, h4] at ha'
    cases n1 <;> cases n2 <;> simp_all [TV.ofBool]
  have key : (Assignment.ofLits (sol.toLits.filterMap r.reverseLit))[v]? = some (TV.ofBool b) ↔
      ∃ o, mapGet v r.inMap = some o ∧ sol[o]? = some (TV.ofBool b) := by
    rw [ofLits_get _ _ _ hc, hmem]
    constructor
    · rintro ⟨l', hl', hr⟩
      rw [mem_toLits, hr.2] at hl'
      exact ⟨l'.var, hr.1, by simpa using hl'⟩
    · rintro ⟨o, h1, h2⟩
      exact ⟨⟨o, !b⟩, by rw [mem_toLits]; simpa using h2, h1, rfl⟩
  split
  · next h => rw [key]; simp [Nat.lt_succ_iff.1 h]
  · next h => simp; omega

end Scuttle
