import Verif.SpecProofLog
import Verif.Proof.Tracer

/-!
# Lemmas about proof logging
-/

namespace Scuttle

set_option linter.unusedSectionVars false

open Spec (Mentions)

section

variable {V : Type} [DecidableEq V]

namespace LbCon

theorem slack_congr {c : LbCon V} {ρ ρ' : V → Bool} (h : ∀ v, Mentions c v → ρ v = ρ' v) : c.slack ρ = c.slack ρ' := by
  rw [slack_def, slack_def]
  congr 2
  apply List.map_congr_left
  intro p hp
  have : p.2.val ρ = p.2.val ρ' := by
    unfold Axm.val
    rw [h _ ⟨p, hp, rfl⟩]
  rw [this]

theorem holds_congr {c : LbCon V} {ρ ρ' : V → Bool} (h : ∀ v, Mentions c v → ρ v = ρ' v) : c.Holds ρ ↔ c.Holds ρ' := by
  rw [holds_iff, holds_iff, slack_congr h]

end LbCon

theorem mem_live {db : ConDb V} {c : LbCon V} : c ∈ Spec.live db ↔ some c ∈ db := by
  unfold Spec.live; simp [List.mem_filterMap]

theorem live_append (db : ConDb V) (c : LbCon V) {d : LbCon V} :
    d ∈ Spec.live (db ++ [some c]) ↔ d ∈ Spec.live db ∨ d = c := by
  rw [mem_live, mem_live]; simp

theorem mem_live_of_get {db : ConDb V} {i : Nat} {c : LbCon V} (h : db.get i = some c) : c ∈ Spec.live db := by
  unfold ConDb.get at h
  split at h
  · cases h
  · cases h1 : db[i - 1]? with
    | none => rw [h1] at h; cases h
    | some y =>
      rw [h1] at h
      change y = some c at h
      subst h
      exact mem_live.2 (List.mem_of_getElem? h1)

theorem subst_single {a : Axm V} (ρ : V → Bool) : Spec.subst [a] ρ = Function.update ρ a.var (!a.neg) := by
  funext v
  unfold Spec.subst
  by_cases h : a.var = v
  · subst h; simp
  · simp [h, Function.update_of_ne (Ne.symm h)]

end

/-! ## Writing lines -/

namespace Spec

variable {ord : (AnyVar → Bool) → (AnyVar → Bool) → Prop} {ps ps' ps'' : PStuff}

theorem Writes.refl (ord : (AnyVar → Bool) → (AnyVar → Bool) → Prop) (ps : PStuff) : Writes ord ps ps :=
  ⟨[], by simp, trivial, rfl⟩

theorem accepted_append' {V : Type} [DecidableEq V] {ord : (V → Bool) → (V → Bool) → Prop} :
    ∀ {db : ConDb V} {ss ss' : List (ProofStep V)}, Accepted ord db ss →
      Accepted ord (ss.foldl (fun db st => st.apply db) db) ss' → Accepted ord db (ss ++ ss')
  | _, [], _, _, h => h
  | _, _ :: _, _, h, h' => ⟨h.1, accepted_append' h.2 h'⟩

theorem Writes.trans (h : Writes ord ps ps') (h' : Writes ord ps' ps'') : Writes ord ps ps'' := by
  obtain ⟨n, h1, h2, h3⟩ := h
  obtain ⟨n', h4, h5, h6⟩ := h'
  refine ⟨n ++ n', by rw [h4, h1, List.append_assoc], accepted_append' h2 (by rw [← h3]; exact h5), ?_⟩
  rw [List.foldl_append, ← h3, h6]

theorem Writes.step (s : ProofStep AnyVar) (hs : StepOk ord ps.proof.db s) (h1 : ps'.proof.steps = ps.proof.steps ++ [s])
    (h2 : ps'.proof.db = s.apply ps.proof.db) : Writes ord ps ps' :=
  ⟨[s], h1, ⟨hs, trivial⟩, h2⟩

theorem Writes.same (h1 : ps'.proof.steps = ps.proof.steps) (h2 : ps'.proof.db = ps.proof.db) : Writes ord ps ps' :=
  ⟨[], by simp [h1], trivial, h2⟩

theorem Keeps.refl (ps : PStuff) : Keeps ps ps := fun _ _ h => h

theorem Keeps.trans (h : Keeps ps ps') (h' : Keeps ps' ps'') : Keeps ps ps'' := fun i c hc => h' i c (h i c hc)

theorem Keeps.step (s : ProofStep AnyVar) (hs : ∀ ids gs, s ≠ .del ids gs) (h2 : ps'.proof.db = s.apply ps.proof.db) :
    Keeps ps ps' := fun i c hc => by
  rw [h2]; exact ProofStep.apply_get hc fun ids gs he => absurd he (hs ids gs)

/-- Constraints that exist before and are not those removed are kept. -/
theorem Keeps.del (ids : List Nat) (gs : List (Goal AnyVar)) {n : Nat} (hn : ∀ i ∈ ids, n < i)
    (h : ∀ i c, i ≤ n → ps.proof.db.get i = some c → ps'.proof.db.get i = some c)
    (h2 : ps''.proof.db = (ProofStep.del ids gs).apply ps'.proof.db) :
    ∀ i c, i ≤ n → ps.proof.db.get i = some c → ps''.proof.db.get i = some c := fun i c hi hc => by
  rw [h2]
  refine ProofStep.apply_get (h i c hi hc) fun ids' gs' he hm => ?_
  cases he
  have := hn i hm
  omega

end Spec

/-! ## Bounds on objectives -/

theorem sum_axm (l : List (Lit × Nat)) (ρ : AnyVar → Bool) :
    ((l.map fun p => ((p.2 : Int), toAxm p.1)).map fun p => p.1 * p.2.val ρ).sum =
      (Spec.linear (Spec.solverAsg ρ) l : Int) := by
  induction l with
  | nil => rfl
  | cons p l ih =>
    simp only [List.map_cons, List.sum_cons, Spec.linear]
    rw [ih]
    have : (toAxm p.1).val ρ = if Spec.LitTrue (Spec.solverAsg ρ) p.1 then 1 else 0 := by
      unfold Axm.val toAxm Spec.LitTrue Spec.solverAsg
      simp only
      rcases Bool.eq_false_or_eq_true (ρ (.solver p.1.var)) with h1 | h1 <;>
        rcases Bool.eq_false_or_eq_true p.1.neg with h2 | h2 <;> simp [h1, h2]
    rw [this]
    split <;> push_cast <;> ring

theorem toAxm_not (l : Lit) : toAxm l.not = (toAxm l).not := rfl

theorem sum_axm_not (l : List (Lit × Nat)) (ρ : AnyVar → Bool) :
    ((l.map fun p => ((p.2 : Int), toAxm p.1.not)).map fun p => p.1 * p.2.val ρ).sum =
      ((l.map Prod.snd).sum : Int) - (Spec.linear (Spec.solverAsg ρ) l : Int) := by
  rw [← sum_axm]
  induction l with
  | nil => rfl
  | cons p l ih =>
    simp only [List.map_cons, List.sum_cons] at ih ⊢
    rw [ih, toAxm_not, Axm.val_not]
    push_cast
    ring

theorem boundDef₁_slack (obj : Objective) (value : Nat) (r : AnyVar) (ρ : AnyVar → Bool) :
    (boundDef₁ obj value r).slack ρ = (obj.total : Int) - Spec.objSum obj ρ +
      ((obj.total : Int) + 1 - value) * (⟨r, false⟩ : Axm AnyVar).val ρ - ((obj.total : Int) + 1 - value) := by
  rw [LbCon.slack_def]
  unfold boundDef₁
  simp only
  rw [List.map_append, List.sum_append, sum_axm_not]
  simp only [List.map_cons, List.map_nil, List.sum_cons, List.sum_nil, add_zero]
  rfl

theorem boundDef₂_slack (obj : Objective) (value : Nat) (r : AnyVar) (ρ : AnyVar → Bool) :
    (boundDef₂ obj value r).slack ρ = (Spec.objSum obj ρ : Int) + value * (1 - (⟨r, false⟩ : Axm AnyVar).val ρ) - value := by
  rw [LbCon.slack_def]
  unfold boundDef₂
  simp only
  rw [List.map_append, List.sum_append, sum_axm]
  simp only [List.map_cons, List.map_nil, List.sum_cons, List.sum_nil, add_zero]
  rw [show (⟨r, true⟩ : Axm AnyVar) = (⟨r, false⟩ : Axm AnyVar).not from rfl, Axm.val_not]
  rfl

theorem linear_le_total (a : Asg) (l : List (Lit × Nat)) : Spec.linear a l ≤ (l.map Prod.snd).sum := by
  induction l with
  | nil => exact Nat.le_refl _
  | cons p l ih =>
    simp only [List.map_cons, List.sum_cons, Spec.linear]
    split <;> omega

theorem objSum_le (obj : Objective) (ρ : AnyVar → Bool) : Spec.objSum obj ρ ≤ obj.total := linear_le_total _ _

theorem val_pos (r : AnyVar) (ρ : AnyVar → Bool) : (⟨r, false⟩ : Axm AnyVar).val ρ = if ρ r then 1 else 0 := by
  unfold Axm.val
  simp only
  cases ρ r <;> simp

/-- The two definitions say that the variable is true exactly if the objective is at least the bound. -/
theorem boundDefs_iff (obj : Objective) (value : Nat) (r : AnyVar) (ρ : AnyVar → Bool) :
    ((boundDef₁ obj value r).Holds ρ ∧ (boundDef₂ obj value r).Holds ρ) ↔ (ρ r = true ↔ value ≤ Spec.objSum obj ρ) := by
  rw [LbCon.holds_iff, LbCon.holds_iff, boundDef₁_slack, boundDef₂_slack, val_pos]
  have := objSum_le obj ρ
  generalize Spec.objSum obj ρ = x at *
  generalize obj.total = w at *
  cases ρ r <;> simp <;> omega

theorem boundDef₁_mentions {obj : Objective} {value : Nat} {r v : AnyVar} (h : Mentions (boundDef₁ obj value r) v) :
    v = r ∨ ∃ x, v = .solver x := by
  obtain ⟨p, hp, rfl⟩ := h
  unfold boundDef₁ at hp
  simp only [List.mem_append, List.mem_map, List.mem_singleton] at hp
  rcases hp with ⟨q, _, rfl⟩ | rfl
  · exact Or.inr ⟨_, rfl⟩
  · exact Or.inl rfl

theorem boundDef₂_mentions {obj : Objective} {value : Nat} {r v : AnyVar} (h : Mentions (boundDef₂ obj value r) v) :
    v = r ∨ ∃ x, v = .solver x := by
  obtain ⟨p, hp, rfl⟩ := h
  unfold boundDef₂ at hp
  simp only [List.mem_append, List.mem_map, List.mem_singleton] at hp
  rcases hp with ⟨q, _, rfl⟩ | rfl
  · exact Or.inr ⟨_, rfl⟩
  · exact Or.inl rfl

theorem solverAsg_update (ρ : AnyVar → Bool) (k : Nat) (b : Bool) :
    Spec.solverAsg (Function.update ρ (.proof k) b) = Spec.solverAsg ρ := by
  funext v
  unfold Spec.solverAsg
  rw [Function.update_of_ne]
  intro h; cases h

theorem objSum_update (obj : Objective) (ρ : AnyVar → Bool) (k : Nat) (b : Bool) :
    Spec.objSum obj (Function.update ρ (.proof k) b) = Spec.objSum obj ρ := by
  unfold Spec.objSum; rw [solverAsg_update]

variable {ord : (AnyVar → Bool) → (AnyVar → Bool) → Prop}

/-- The first definition is redundant for a fresh variable. -/
theorem boundDef₁_redundant (hord : Spec.SolverOrder ord) {cs : List (LbCon AnyVar)} (obj : Objective) (value k : Nat)
    (hf : ∀ c ∈ cs, ¬ Mentions c (.proof k)) :
    Spec.Redundant ord cs (boundDef₁ obj value (.proof k)) [⟨.proof k, false⟩] := by
  intro ρ hcs _
  rw [subst_single]
  refine ⟨fun d hd => ?_, ?_, hord _ _ (solverAsg_update ρ k _)⟩
  · refine (LbCon.holds_congr fun v hv => ?_).1 (hcs d hd)
    rw [Function.update_of_ne]
    rintro rfl; exact hf d hd hv
  · rw [LbCon.holds_iff, boundDef₁_slack, val_pos, objSum_update]
    have := objSum_le obj ρ
    simp; omega

/-- The second definition is redundant after the first one. -/
theorem boundDef₂_redundant (hord : Spec.SolverOrder ord) {cs : List (LbCon AnyVar)} (obj : Objective) (value k : Nat)
    (hf : ∀ c ∈ cs, Mentions c (.proof k) → c = boundDef₁ obj value (.proof k)) :
    Spec.Redundant ord cs (boundDef₂ obj value (.proof k)) [⟨.proof k, true⟩] := by
  intro ρ hcs hn
  rw [subst_single]
  have h2 : ρ (.proof k) = true ∧ Spec.objSum obj ρ < value := by
    rw [LbCon.holds_iff, boundDef₂_slack, val_pos] at hn
    generalize Spec.objSum obj ρ = x at *
    cases h : ρ (.proof k) <;> rw [h] at hn <;> simp at hn ⊢ <;> omega
  refine ⟨fun d hd => ?_, ?_, hord _ _ (solverAsg_update ρ k _)⟩
  · by_cases hm : Mentions d (.proof k)
    · rw [hf d hd hm, LbCon.holds_iff, boundDef₁_slack, val_pos, objSum_update]
      simp; omega
    · refine (LbCon.holds_congr fun v hv => ?_).1 (hcs d hd)
      rw [Function.update_of_ne]
      rintro rfl; exact hm hv
  · rw [LbCon.holds_iff, boundDef₂_slack, val_pos, objSum_update]
    simp

theorem mem_of_mapGet {α β : Type} [DecidableEq α] {k : α} {v : β} : ∀ {l : List (α × β)}, mapGet k l = some v → (k, v) ∈ l
  | [], h => by cases h
  | (k', v') :: l, h => by
    unfold mapGet at h
    split at h
    · next he => cases h; subst he; exact List.mem_cons_self ..
    · exact List.mem_cons_of_mem _ (mem_of_mapGet h)

theorem mem_mapInsert {α β : Type} [DecidableEq α] {k : α} {v : β} {q : α × β} : ∀ {l : List (α × β)},
    q ∈ mapInsert k v l → q = (k, v) ∨ q ∈ l
  | [], h => by simp [mapInsert] at h; exact Or.inl h
  | (k', v') :: l, h => by
    unfold mapInsert at h
    split at h
    · rcases List.mem_cons.1 h with rfl | h
      · exact Or.inl rfl
      · exact Or.inr (List.mem_cons_of_mem _ h)
    · rcases List.mem_cons.1 h with rfl | h
      · exact Or.inr (List.mem_cons_self ..)
      · rcases mem_mapInsert h with h | h
        · exact Or.inl h
        · exact Or.inr (List.mem_cons_of_mem _ h)

theorem Spec.BoundsDefined.mono {objs : List Objective} {ps ps' : PStuff} (h : Spec.BoundsDefined objs ps)
    (hk : Spec.Keeps ps ps') (hb : ps'.bounds = ps.bounds) (hn : ps.proof.nProofVars ≤ ps'.proof.nProofVars)
    (hv : ∀ x ∈ ps.valueMap, x ∈ ps'.valueMap) : Spec.BoundsDefined objs ps' := by
  intro idx value lit d₁ d₂ hm
  rw [hb] at hm
  obtain ⟨obj, k, h1, h2, h3, h4, h5, h6, h7⟩ := h idx value lit d₁ d₂ hm
  exact ⟨obj, k, h1, h2, h3, by omega, hk _ _ h5, hk _ _ h6, hv _ h7⟩

/-- `get_obj_bound_constraint` gives a literal with its two definitions, writes correct lines and keeps all constraints. -/
theorem getObjBound_spec (hord : Spec.SolverOrder ord) {objs : List Objective} {ps : PStuff} {obj : Objective} {value : Nat}
    (ho : objs[obj.idx]? = some obj) (hb : Spec.BoundsDefined objs ps) (hf : Spec.ProofVarsFresh ps) :
    ∃ k d₁ d₂ ps', getObjBound value obj ps = ((⟨.proof k, false⟩, d₁, d₂), ps') ∧
      ps'.proof.db.get d₁ = some (boundDef₁ obj value (.proof k)) ∧
      ps'.proof.db.get d₂ = some (boundDef₂ obj value (.proof k)) ∧
      ((⟨.proof k, false⟩ : Axm AnyVar), ProofVal.objAtLeast obj.idx value) ∈ ps'.valueMap ∧
      Spec.Writes ord ps ps' ∧ Spec.Keeps ps ps' ∧ Spec.BoundsDefined objs ps' ∧ Spec.ProofVarsFresh ps' ∧
      ps'.added = ps.added ∧ (∀ x ∈ ps.valueMap, x ∈ ps'.valueMap) := by
  cases hm : mapGet (obj.idx, value) ps.bounds with
  | some d =>
    obtain ⟨lit, d₁, d₂⟩ := d
    obtain ⟨obj', k, h1, h2, h3, h4, h5, h6, h7⟩ := hb _ _ _ _ _ (mem_of_mapGet hm)
    rw [ho] at h1; cases h1
    subst h3
    refine ⟨k, d₁, d₂, ps, ?_, h5, h6, h7, Spec.Writes.refl ord ps, Spec.Keeps.refl ps, hb, hf, rfl, fun _ h => h⟩
    unfold getObjBound; rw [hm]
  | none =>
    generalize hk : ps.proof.nProofVars = k
    let s₁ : ProofStep AnyVar := .red (boundDef₁ obj value (.proof k)) [⟨.proof k, false⟩] []
    let s₂ : ProofStep AnyVar := .red (boundDef₂ obj value (.proof k)) [⟨.proof k, true⟩] []
    let p₀ : Pf AnyVar := { ps.proof with nProofVars := k + 1 }
    let d₁ := p₀.nextId
    let p₁ := p₀.write s₁
    let d₂ := p₁.nextId
    let p₂ := p₁.write s₂
    let ps' : PStuff := { ps with
      proof := p₂
      valueMap := ps.valueMap ++ [((⟨.proof k, false⟩ : Axm AnyVar), ProofVal.objAtLeast obj.idx value)]
      bounds := mapInsert (obj.idx, value) (⟨.proof k, false⟩, d₁, d₂) ps.bounds }
    have hcode : getObjBound value obj ps = ((⟨.proof k, false⟩, d₁, d₂), ps') := by
      subst hk; unfold getObjBound; rw [hm]; rfl
    have hdb1 : p₁.db = ps.proof.db ++ [some (boundDef₁ obj value (.proof k))] := rfl
    have hdb2 : p₂.db = p₁.db ++ [some (boundDef₂ obj value (.proof k))] := rfl
    have hg1 : p₂.db.get d₁ = some (boundDef₁ obj value (.proof k)) :=
      ConDb.get_append _ (ConDb.get_new ps.proof.db _)
    have hg2 : p₂.db.get d₂ = some (boundDef₂ obj value (.proof k)) := ConDb.get_new p₁.db _
    have hfresh : ∀ c ∈ Spec.live ps.proof.db, ¬ Mentions c (.proof k) := fun c hc hme => by
      have := hf c hc k hme
      omega
    have hlive : ∀ c, c ∈ Spec.live p₂.db ↔ c ∈ Spec.live ps.proof.db ∨ c = boundDef₁ obj value (.proof k) ∨
        c = boundDef₂ obj value (.proof k) := by
      intro c
      rw [hdb2, live_append, hdb1, live_append, or_assoc]
    have hkeep : Spec.Keeps ps ps' := fun i c hc => ConDb.get_append _ (ConDb.get_append _ hc)
    refine ⟨k, d₁, d₂, ps', hcode, hg1, hg2, ?_, ⟨[s₁, s₂], ?_, ⟨?_, ?_, trivial⟩, rfl⟩, hkeep, ?_, ?_, rfl, ?_⟩
    · show _ ∈ ps.valueMap ++ [_]
      simp
    · show (ps.proof.steps ++ [s₁]) ++ [s₂] = _
      simp
    · exact boundDef₁_redundant hord obj value k hfresh
    · refine boundDef₂_redundant hord obj value k fun c hc hme => ?_
      have hc' : c ∈ Spec.live (ps.proof.db ++ [some (boundDef₁ obj value (.proof k))]) := hc
      rw [live_append] at hc'
      rcases hc' with hc' | hc'
      · exact absurd hme (hfresh c hc')
      · exact hc'
    · intro idx v lit e₁ e₂ hmem
      rcases mem_mapInsert hmem with he | he
      · cases he
        refine ⟨obj, k, ho, rfl, rfl, Nat.lt_succ_self _, hg1, hg2, ?_⟩
        show _ ∈ ps.valueMap ++ [_]
        simp
      · obtain ⟨obj', k', h1, h2, h3, h4, h5, h6, h7⟩ := hb _ _ _ _ _ he
        refine ⟨obj', k', h1, h2, h3, ?_, hkeep _ _ h5, hkeep _ _ h6, ?_⟩
        · show k' < k + 1
          omega
        · show _ ∈ ps.valueMap ++ [_]
          exact List.mem_append_left _ h7
    · intro c hc j hme
      show j < k + 1
      rcases (hlive c).1 hc with h | rfl | rfl
      · have := hf c h j hme
        omega
      · rcases boundDef₁_mentions hme with h | ⟨x, h⟩
        · cases h; omega
        · cases h
      · rcases boundDef₂_mentions hme with h | ⟨x, h⟩
        · cases h; omega
        · cases h
    · intro x hx
      exact List.mem_append_left _ hx

end Scuttle
