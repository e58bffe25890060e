import Verif.Proof.Basic

/-!
# C23: reindexer, C24: variable manager
-/

namespace Scuttle

/-! ## C24 -/

/-- Operations on a variable manager that solvers perform: handing out variables
(`/repo/core/src/algs/pminimal.rs:633`), encoders advancing the next free variable, merging managers, forgetting the
encoding variables (`/repo/core/src/algs.rs:1007-1010`) and marking (`/repo/core/src/prepro.rs`). -/
inductive VmOp where
  | newVar
  | increaseNextFree (v : Nat)
  | combine (other : VarManager)
  | markMaxEncVar

/-- Runs one operation: the variable handed out, if any, and the new manager. -/
def VmOp.run (vm : VarManager) : VmOp → List Nat × VarManager
  | .newVar => ([vm.newVar.1], vm.newVar.2)
  | .increaseNextFree v => ([], (vm.increaseNextFree v).2)
  | .combine o => ([], vm.combine o)
  | .markMaxEncVar => ([], vm.markMaxEncVar.getD vm)

/-- Runs a history: all variables handed out in order, and the final manager. -/
def VmOp.runAll (vm : VarManager) : List VmOp → List Nat × VarManager
  | [] => ([], vm)
  | op :: ops => let r := op.run vm; let rs := VmOp.runAll r.2 ops; (r.1 ++ rs.1, rs.2)

/-- The maxima are ordered. -/
def VarManager.Ordered (vm : VarManager) : Prop := vm.maxOrigVar ≤ vm.maxEncVar ∧ vm.maxEncVar < vm.nextVar

theorem VmOp.run_spec (vm : VarManager) (h : vm.Ordered) (op : VmOp) :
    (op.run vm).2.Ordered ∧ vm.nextVar ≤ (op.run vm).2.nextVar ∧ (op.run vm).2.maxOrigVar = vm.maxOrigVar ∧
    vm.maxEncVar ≤ (op.run vm).2.maxEncVar ∧
    ∀ v ∈ (op.run vm).1, vm.nextVar ≤ v ∧ v < (op.run vm).2.nextVar := by
  obtain ⟨h1, h2⟩ := h
  cases op with
  | newVar => simp [run, VarManager.newVar, VarManager.Ordered]; omega
  | increaseNextFree v =>
    simp only [run, VarManager.increaseNextFree, VarManager.Ordered]
    split <;> simp <;> omega
  | combine o =>
    simp only [run, VarManager.combine, VarManager.Ordered]
    split <;> simp <;> omega
  | markMaxEncVar =>
    simp only [run, VarManager.markMaxEncVar, VarManager.Ordered]
    split <;> simp <;> omega

theorem VmOp.runAll_spec (vm : VarManager) (h : vm.Ordered) (ops : List VmOp) :
    (VmOp.runAll vm ops).2.Ordered ∧ vm.nextVar ≤ (VmOp.runAll vm ops).2.nextVar ∧
    (VmOp.runAll vm ops).2.maxOrigVar = vm.maxOrigVar ∧
    (∀ v ∈ (VmOp.runAll vm ops).1, vm.nextVar ≤ v ∧ v < (VmOp.runAll vm ops).2.nextVar) ∧
    (VmOp.runAll vm ops).1.Pairwise (· < ·) := by
  induction ops generalizing vm with
  | nil => simp [runAll, h]
  | cons op ops ih =>
    obtain ⟨a1, a2, a3, _, a4⟩ := VmOp.run_spec vm h op
    obtain ⟨b1, b2, b3, b4, b5⟩ := ih (op.run vm).2 a1
    simp only [runAll]
    refine ⟨b1, by omega, by omega, ?_, ?_⟩
    · intro v hv
      rcases List.mem_append.1 hv with hv | hv
      · have := a4 v hv; omega
      · have := b4 v hv; omega
    · rw [List.pairwise_append]
      refine ⟨?_, b5, ?_⟩
      · cases op <;> simp [run]
      · intro x hx y hy
        have := a4 x hx; have := b4 y hy; omega

/-- **C24.** Along every history from `VarManager::new`, the variables handed out are strictly increasing (so pairwise
different), larger than all original and encoding variables of the instance, and the maxima stay ordered. -/
theorem varManager_fresh (maxOrig maxEnc : Nat) (vm : VarManager) (hnew : VarManager.new maxOrig maxEnc = some vm)
    (ops : List VmOp) :
    (VmOp.runAll vm ops).1.Pairwise (· < ·) ∧
    (∀ v ∈ (VmOp.runAll vm ops).1, maxOrig < v ∧ maxEnc < v ∧ some v ≤ (VmOp.runAll vm ops).2.maxVar) ∧
    (VmOp.runAll vm ops).2.maxOrigVar = maxOrig ∧
    (VmOp.runAll vm ops).2.Ordered := by
  unfold VarManager.new at hnew
  split at hnew
  · next hle =>
    simp only [Option.some.injEq] at hnew
    subst hnew
    obtain ⟨b1, b2, b3, b4, b5⟩ := VmOp.runAll_spec ⟨maxEnc + 1, maxOrig, maxEnc⟩
      ⟨hle, Nat.lt_succ_self _⟩ ops
    refine ⟨b5, ?_, b3, b1⟩
    intro v hv
    have := b4 v hv
    simp only at this
    refine ⟨by omega, by omega, ?_⟩
    unfold VarManager.maxVar
    rw [if_neg (by omega)]
    simp only [Option.some_le_some]
    omega
  · simp at hnew

example : VarManager.new 3 5 = some ⟨6, 3, 5⟩ ∧
    (VmOp.runAll ⟨6, 3, 5⟩ [.newVar, .increaseNextFree 9, .newVar, .combine ⟨8, 0, 0⟩, .newVar]).1 = [6, 9, 10] := by
  decide

/-- **C24.** Handing out a variable again after `forget_from` is confined to variables at or above the bound given:
everything below it, in particular the original and encoding variables for the bound used in `reset_oracle`, stays
taken. -/
theorem varManager_forget_from (vm : VarManager) (h : vm.Ordered) (minVar : Nat) (hm : vm.maxEncVar < minVar)
    (ops : List VmOp) :
    (vm.forgetFrom minVar).Ordered ∧
    ∀ v ∈ (VmOp.runAll (vm.forgetFrom minVar) ops).1, vm.maxEncVar < v ∧ (v < vm.nextVar → minVar ≤ v) := by
  have ho : (vm.forgetFrom minVar).Ordered := by
    obtain ⟨h1, h2⟩ := h
    simp only [VarManager.forgetFrom, VarManager.Ordered]; omega
  refine ⟨ho, fun v hv => ?_⟩
  obtain ⟨_, _, _, b4, _⟩ := VmOp.runAll_spec _ ho ops
  have := (b4 v hv).1
  obtain ⟨h1, h2⟩ := h
  simp only [VarManager.forgetFrom] at this
  omega

example : (⟨9, 3, 5⟩ : VarManager).Ordered ∧ (VmOp.runAll ((⟨9, 3, 5⟩ : VarManager).forgetFrom 6) [.newVar]).1 = [6] := by
  unfold VarManager.Ordered; decide

/-! ## C23 -/

/-- The new names given to a sequence of variables, and the reindexer afterwards. -/
def Reindexer.runAll (r : Reindexer) : List Nat → List Nat × Reindexer
  | [] => ([], r)
  | v :: vs => let q := r.reindex v; let rs := runAll q.2 vs; (q.1 :: rs.1, rs.2)

/-- Invariant of the reindexer: the maps are inverse to each other and cover `0 .. next_var`. -/
structure Reindexer.Inv (r : Reindexer) : Prop where
  len : r.outMap.length = r.nextVar
  inv : ∀ v o, mapGet v r.inMap = some o ↔ r.outMap[o]? = some v

theorem mapGet_mapInsert {α β} [DecidableEq α] (k k' : α) (v : β) (m : List (α × β)) :
    mapGet k' (mapInsert k v m) = if k = k' then some v else mapGet k' m := by
  induction m with
  | nil => simp only [mapInsert, mapGet]
  | cons p m ih =>
    obtain ⟨a, b⟩ := p
    simp only [mapInsert]
    by_cases h : a = k
    · subst h; simp only [if_true, mapGet]; split <;> simp_all
    · rw [if_neg h]; simp only [mapGet, ih]
      by_cases h2 : a = k'
      · subst h2; simp [Ne.symm h]
      · simp [h2]

theorem Reindexer.new_inv (n : Nat) : (Reindexer.new n).Inv := ⟨rfl, by simp [Reindexer.new, mapGet]⟩

theorem Reindexer.reindex_spec (r : Reindexer) (h : r.Inv) (v : Nat) :
    (r.reindex v).2.Inv ∧ mapGet v (r.reindex v).2.inMap = some (r.reindex v).1 ∧
    (∀ w o, mapGet w r.inMap = some o → mapGet w (r.reindex v).2.inMap = some o) ∧
    (∀ w o, mapGet w (r.reindex v).2.inMap = some o → w = v ∨ mapGet w r.inMap = some o) := by
  unfold Reindexer.reindex
  cases hg : mapGet v r.inMap with
  | some o => simp only; exact ⟨h, hg, fun _ _ h => h, fun _ _ h => .inr h⟩
  | none =>
    simp only [Reindexer.newVar]
    refine ⟨⟨by simp [h.len], ?_⟩, by simp [mapGet_mapInsert], ?_, ?_⟩
    · intro w o
      simp only [mapGet_mapInsert]
      by_cases hw : v = w
      · subst hw
        simp only [if_true, Option.some.injEq]
        constructor
        · rintro rfl; rw [← h.len]; simp
        · intro ho
          by_contra hne
          rw [List.getElem?_append] at ho
          split at ho
          · have := (h.inv v o).2 ho; rw [hg] at this; simp at this
          · next hlt => 
            rw [h.len] at ho hlt
            rw [List.getElem?_cons] at ho
            split at ho <;> simp_all
            omega
      · rw [if_neg hw, h.inv]
        rw [List.getElem?_append]
        split
        · rfl
        · next hlt =>
          rw [List.getElem?_eq_none (by omega), List.getElem?_cons]
          split
          · simp [hw]
          · simp
    · intro w o ho
      rw [mapGet_mapInsert]
      split
      · next hvw => subst hvw; rw [hg] at ho; simp at ho
      · exact ho
    · intro w o ho
      rw [mapGet_mapInsert] at ho
      split at ho
      · next hvw => exact .inl hvw.symm
      · exact .inr ho

theorem Reindexer.runAll_spec (r : Reindexer) (h : r.Inv) (vs : List Nat) :
    (r.runAll vs).2.Inv ∧
    (∀ w o, mapGet w r.inMap = some o → mapGet w (r.runAll vs).2.inMap = some o) ∧
    List.Forall₂ (fun v o => mapGet v (r.runAll vs).2.inMap = some o) vs (r.runAll vs).1 ∧
    (∀ w o, mapGet w (r.runAll vs).2.inMap = some o → w ∈ vs ∨ mapGet w r.inMap = some o) := by
  induction vs generalizing r with
  | nil => exact ⟨h, fun _ _ h => h, .nil, fun _ _ h => .inr h⟩
  | cons v vs ih =>
    obtain ⟨a1, a2, a3, a4⟩ := r.reindex_spec h v
    obtain ⟨b1, b2, b3, b4⟩ := ih (r.reindex v).2 a1
    simp only [runAll]
    refine ⟨b1, fun w o ho => b2 w o (a3 w o ho), .cons (b2 _ _ a2) b3, ?_⟩
    intro w o ho
    rcases b4 w o ho with hw | hw
    · exact .inl (by simp [hw])
    · rcases a4 w o hw with hw | hw
      · exact .inl (by simp [hw])
      · exact .inr hw

/-- **C23.** After any sequence of `reindex` calls on a fresh reindexer: equal inputs have equal names and different
inputs different names, the names in use are exactly `0 .. n` for the number `n` of different inputs, and `reverse`
undoes `reindex` (and is undefined elsewhere). -/
theorem reindexer_bijection (m : Nat) (vs : List Nat) :
    (∀ (i j v w a b : Nat), vs[i]? = some v → vs[j]? = some w →
      ((Reindexer.new m).runAll vs).1[i]? = some a → ((Reindexer.new m).runAll vs).1[j]? = some b →
      (v = w ↔ a = b)) ∧
    (∀ a, a ∈ ((Reindexer.new m).runAll vs).1 ↔ a < ((Reindexer.new m).runAll vs).2.nextVar) ∧
    (∀ (i v a : Nat), vs[i]? = some v → ((Reindexer.new m).runAll vs).1[i]? = some a →
      ((Reindexer.new m).runAll vs).2.reverse a = some v) ∧
    (∀ a, ((Reindexer.new m).runAll vs).2.nextVar ≤ a → ((Reindexer.new m).runAll vs).2.reverse a = none) := by
  obtain ⟨hinv, _, hall, hback⟩ := (Reindexer.new m).runAll_spec (Reindexer.new_inv m) vs
  generalize ((Reindexer.new m).runAll vs).1 = as at *
  generalize ((Reindexer.new m).runAll vs).2 = r at *
  have hget : ∀ (i v a : Nat), vs[i]? = some v → as[i]? = some a → mapGet v r.inMap = some a := by
    intro i v a hv ha
    obtain ⟨hi, rfl⟩ := List.getElem?_eq_some_iff.1 hv
    obtain ⟨hi', rfl⟩ := List.getElem?_eq_some_iff.1 ha
    exact (List.forall₂_iff_get.1 hall).2 i hi hi'
  have hlen : vs.length = as.length := hall.length_eq
  refine ⟨?_, ?_, ?_, ?_⟩
  · intro i j v w a b hv hw ha hb
    have h1 := hget i v a hv ha
    have h2 := hget j w b hw hb
    constructor
    · rintro rfl; rw [h1] at h2; simpa using h2
    · rintro rfl
      have h3 := (hinv.inv _ _).1 h1
      have h4 := (hinv.inv _ _).1 h2
      rw [h3] at h4; simpa using h4
  · intro a
    constructor
    · intro ha
      obtain ⟨i, hi⟩ := List.mem_iff_getElem?.1 ha
      obtain ⟨hi', _⟩ := List.getElem?_eq_some_iff.1 hi
      have hv : vs[i]? = some vs[i] := List.getElem?_eq_getElem (by omega)
      have := (hinv.inv _ _).1 (hget i _ a hv hi)
      obtain ⟨h, _⟩ := List.getElem?_eq_some_iff.1 this
      rw [hinv.len] at h; exact h
    · intro ha
      rw [← hinv.len] at ha
      have h1 := (hinv.inv r.outMap[a] a).2 (List.getElem?_eq_getElem ha)
      rcases hback _ _ h1 with hm | hm
      · obtain ⟨i, hi⟩ := List.mem_iff_getElem?.1 hm
        obtain ⟨hi', _⟩ := List.getElem?_eq_some_iff.1 hi
        have h2 := hget i _ as[i] hi (List.getElem?_eq_getElem (by omega))
        rw [h1] at h2
        simp only [Option.some.injEq] at h2
        rw [h2]; exact List.getElem_mem _
      · simp [Reindexer.new, mapGet] at hm
  · intro i v a hv ha
    have h3 := (hinv.inv _ _).1 (hget i v a hv ha)
    obtain ⟨h, _⟩ := List.getElem?_eq_some_iff.1 h3
    unfold Reindexer.reverse
    rw [if_neg (by omega), h3]
  · intro a ha
    unfold Reindexer.reverse
    rw [if_pos (by rw [hinv.len]; exact ha)]

example : ((Reindexer.new 9).runAll [7, 3, 7, 5]).1 = [0, 1, 0, 2] ∧
    ((Reindexer.new 9).runAll [7, 3, 7, 5]).2.reverse 2 = some 5 := by decide

theorem mapInsert_nodup {α β} [DecidableEq α] (k : α) (v : β) : ∀ {m : List (α × β)}, (m.map Prod.fst).Nodup →
    ((mapInsert k v m).map Prod.fst).Nodup ∧ ∀ x ∈ (mapInsert k v m).map Prod.fst, x = k ∨ x ∈ m.map Prod.fst
  | [], _ => by simp [mapInsert]
  | (a, b) :: m, h => by
    rw [List.map_cons, List.nodup_cons] at h
    unfold mapInsert
    split
    · next he =>
      subst he
      exact ⟨List.nodup_cons.2 h, fun x hx => Or.inr hx⟩
    · next he =>
      obtain ⟨h1, h2⟩ := mapInsert_nodup k v h.2
      refine ⟨List.nodup_cons.2 ⟨fun hm => ?_, h1⟩, fun x hx => ?_⟩
      · rcases h2 a hm with h3 | h3
        · exact he h3
        · exact h.1 h3
      · rcases List.mem_cons.1 hx with h3 | h3
        · exact Or.inr (h3 ▸ List.mem_cons_self ..)
        · exact (h2 x h3).imp id fun h4 => List.mem_cons_of_mem _ h4

theorem mapGet_of_nodup {α β} [DecidableEq α] {k : α} {v : β} : ∀ {m : List (α × β)}, (m.map Prod.fst).Nodup →
    (k, v) ∈ m → mapGet k m = some v
  | (a, b) :: m, h, hm => by
    rw [List.map_cons, List.nodup_cons] at h
    unfold mapGet
    rcases List.mem_cons.1 hm with h1 | h1
    · cases h1; simp
    · have : a ≠ k := by
        rintro rfl
        exact h.1 (List.mem_map.2 ⟨_, h1, rfl⟩)
      rw [if_neg this]
      exact mapGet_of_nodup h.2 h1

theorem Reindexer.runAll_nodup : ∀ (vs : List Nat) (r : Reindexer), (r.inMap.map Prod.fst).Nodup →
    ((r.runAll vs).2.inMap.map Prod.fst).Nodup
  | [], _, h => h
  | v :: vs, r, h => by
    refine Reindexer.runAll_nodup vs (r.reindex v).2 ?_
    unfold Reindexer.reindex
    split
    · exact h
    · exact (mapInsert_nodup _ _ h).1

/-- C23: what `forget_from` is right about. Variables with a new name below the given one keep their name in both
directions, all others lose it and get the next free one when seen again. -/
theorem reindexer_forget_keeps (m : Nat) (vs : List Nat) (minVar : Nat) {i v a : Nat} (hv : vs[i]? = some v)
    (ha : ((Reindexer.new m).runAll vs).1[i]? = some a) :
    (a < minVar → ((((Reindexer.new m).runAll vs).2.forgetFrom minVar).reindex v).1 = a ∧
      (((Reindexer.new m).runAll vs).2.forgetFrom minVar).reverse a = some v) ∧
    (minVar ≤ a → ((((Reindexer.new m).runAll vs).2.forgetFrom minVar).reindex v).1 = minVar) := by
  obtain ⟨hinv, _, hall, hback⟩ := (Reindexer.new m).runAll_spec (Reindexer.new_inv m) vs
  generalize ((Reindexer.new m).runAll vs).1 = as at *
  generalize hr : ((Reindexer.new m).runAll vs).2 = r at *
  have hg : mapGet v r.inMap = some a := by
    obtain ⟨hi, rfl⟩ := List.getElem?_eq_some_iff.1 hv
    obtain ⟨hi', rfl⟩ := List.getElem?_eq_some_iff.1 ha
    exact (List.forall₂_iff_get.1 hall).2 i hi hi'
  have hout := (hinv.inv _ _).1 hg
  obtain ⟨hlt, _⟩ := List.getElem?_eq_some_iff.1 hout
  have hfind : ∀ (l : List (Nat × Nat)), (∀ b, (v, b) ∈ l → b = a) →
      mapGet v (l.filter fun p => p.2 < minVar) = if a < minVar then mapGet v l else none := by
    intro l
    induction l with
    | nil => intro _; simp [mapGet]
    | cons p l ih =>
      intro hb
      obtain ⟨x, y⟩ := p
      have ih := ih fun b h => hb b (List.mem_cons_of_mem _ h)
      by_cases hx : x = v
      · subst hx
        have := hb y (List.mem_cons_self ..)
        subst this
        by_cases hy : y < minVar
        · rw [List.filter_cons_of_pos (by simpa using hy), if_pos hy]; simp [mapGet]
        · rw [List.filter_cons_of_neg (by simpa using hy), ih, if_neg hy, if_neg hy]
      · by_cases hy : y < minVar
        · rw [List.filter_cons_of_pos (by simpa using hy)]
          simp only [mapGet, if_neg hx]; exact ih
        · rw [List.filter_cons_of_neg (by simpa using hy), ih]
          simp only [mapGet, if_neg hx]
  have hnd : (r.inMap.map Prod.fst).Nodup := hr ▸ Reindexer.runAll_nodup vs _ (by simp [Reindexer.new])
  have hmem : ∀ b, (v, b) ∈ r.inMap → b = a := fun b hb => by
    have := mapGet_of_nodup hnd hb
    rw [hg] at this; simpa using this.symm
  have hf := hfind r.inMap hmem
  have hmap : (r.forgetFrom minVar).inMap = r.inMap.filter fun p => p.2 < minVar := rfl
  rw [hinv.len] at hlt
  constructor
  · intro h
    rw [if_pos h, hg] at hf
    constructor
    · unfold Reindexer.reindex
      rw [hmap, hf]
    · unfold Reindexer.reverse
      have h2 : (r.forgetFrom minVar).outMap = r.outMap.take (minVar + 1) := rfl
      rw [h2, List.length_take, if_neg (by rw [hinv.len]; omega), List.getElem?_take_of_lt (by omega), hout]
  · intro h
    rw [if_neg (by omega)] at hf
    unfold Reindexer.reindex
    rw [hmap, hf]
    show min r.nextVar minVar = minVar
    omega

example : ((((Reindexer.new 9).runAll [7, 3, 5]).2.forgetFrom 2).reindex 3).1 = 1 ∧
    ((((Reindexer.new 9).runAll [7, 3, 5]).2.forgetFrom 2).reindex 5).1 = 2 := by decide

/-- **Finding for C23.** After `forget_from` the reindexer is out of step: one entry too many is kept in the table of
old names, so that a variable reindexed afterwards is mapped back to the wrong variable. -/
theorem reindexer_forget_from_counterexample :
    ∃ (vs : List Nat) (minVar v : Nat),
      let r := ((Reindexer.new 9).runAll vs).2.forgetFrom minVar
      (r.reindex v).2.reverse (r.reindex v).1 ≠ some v :=
  ⟨[7, 3, 5], 1, 8, by decide⟩

/-- **Finding for C23.** Handing out a fresh variable between two calls of `reindex` puts the table of old names out of
step as well. -/
theorem reindexer_new_var_counterexample :
    ∃ (vs : List Nat) (v : Nat),
      let r := ((Reindexer.new 9).runAll vs).2.newVar.2
      (r.reindex v).2.reverse (r.reindex v).1 ≠ some v :=
  ⟨[7], 8, by decide⟩

end Scuttle
