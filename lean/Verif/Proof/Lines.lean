import Verif.Proof.Extend

/-!
# Lines that derive constraints, whatever solutions are left

As `Verif/Proof/Extend.lean`, but without a solution that satisfies the constraints.
-/

set_option linter.unusedSectionVars false

namespace Scuttle

variable {ord : (AnyVar → Bool) → (AnyVar → Bool) → Prop}

/-- Lines that only derive constraints and remove constraints that were derived. -/
structure Lines (ord : (AnyVar → Bool) → (AnyVar → Bool) → Prop) (ps ps' : PStuff) : Prop where
  writes : Spec.Writes ord ps ps'
  keeps : Spec.Keeps ps ps'
  fresh : Spec.ProofVarsFresh ps → Spec.ProofVarsFresh ps'
  sound : ∀ ρ, (∀ c ∈ Spec.live ps.proof.db, c.Holds ρ) → ∀ c ∈ Spec.live ps'.proof.db, c.Holds ρ
  values : ps'.valueMap = ps.valueMap
  bounds : ps'.bounds = ps.bounds
  nVars : ps'.proof.nProofVars = ps.proof.nProofVars
  length : ps.proof.db.length ≤ ps'.proof.db.length

theorem Lines.refl (ps : PStuff) : Lines ord ps ps :=
  ⟨Spec.Writes.refl ord ps, Spec.Keeps.refl ps, fun h => h, fun _ h => h, rfl, rfl, rfl, le_refl _⟩

theorem Lines.trans {ps ps' ps'' : PStuff} (h : Lines ord ps ps') (h' : Lines ord ps' ps'') : Lines ord ps ps'' :=
  ⟨h.writes.trans h'.writes, h.keeps.trans h'.keeps, fun f => h'.fresh (h.fresh f), fun ρ f => h'.sound ρ (h.sound ρ f),
    h'.values.trans h.values, h'.bounds.trans h.bounds, h'.nVars.trans h.nVars, h.length.trans h'.length⟩

theorem Lines.boundsDefined {ps ps' : PStuff} (h : Lines ord ps ps') {objs : List Objective}
    (hb : Spec.BoundsDefined objs ps) : Spec.BoundsDefined objs ps' :=
  hb.mono h.keeps h.bounds (le_of_eq h.nVars.symm) fun x hx => by rw [h.values]; exact hx

theorem lines_new {ps ps' : PStuff} {s : ProofStep AnyVar} {c : LbCon AnyVar} (hs : Spec.StepOk ord ps.proof.db s)
    (happ : s.apply ps.proof.db = ps.proof.db ++ [some c]) (hps : ps' = (ps.push s).2)
    (himp : ∀ ρ, (∀ d ∈ Spec.live ps.proof.db, d.Holds ρ) → c.Holds ρ)
    (hm : Spec.ProofVarsFresh ps → ∀ k, Spec.Mentions c (.proof k) → k < ps.proof.nProofVars) :
    Lines ord ps ps' ∧ ps'.proof.db = ps.proof.db ++ [some c] ∧ ps'.proof.db.get (ps.push s).1 = some c := by
  subst hps
  have hdb : (ps.push s).2.proof.db = ps.proof.db ++ [some c] := happ
  have hk : Spec.Keeps ps (ps.push s).2 := fun i d hd => by rw [hdb]; exact ConDb.get_append _ hd
  refine ⟨⟨Spec.Writes.step s hs rfl rfl, hk, fun hf d hd k hk => ?_, fun ρ hρ d hd => ?_, rfl, rfl, rfl, by rw [hdb]; simp⟩,
    hdb, ?_⟩
  · rw [hdb, live_append] at hd
    rcases hd with hd | rfl
    · exact hf d hd k hk
    · exact hm hf k hk
  · rw [hdb, live_append] at hd
    rcases hd with hd | rfl
    · exact hρ d hd
    · exact himp ρ hρ
  · rw [hdb]; exact ConDb.get_new _ _

theorem lines_pol {ps : PStuff} {o : Ops} {c : LbCon AnyVar} (ho : o.eval ps.proof.db = some c) :
    Lines ord ps (ps.push (.pol o)).2 ∧ (ps.push (.pol o)).2.proof.db = ps.proof.db ++ [some c] ∧
      (ps.push (.pol o)).2.proof.db.get (ps.push (.pol o)).1 = some c := by
  refine lines_new (s := .pol o) ?_ ?_ rfl (fun ρ hρ => Ops.eval_sound (fun i d hd => hρ d (ConDb.find_mem hd)) ho)
    fun hf k hk => ?_
  · show (o.eval ps.proof.db).isSome
    rw [ho]; rfl
  · show ps.proof.db ++ [o.eval ps.proof.db] = _
    rw [ho]
  · obtain ⟨d, hd, hm⟩ := Ops.eval_mentions ho hk
    exact hf d hd k hm

theorem lines_rup {ps : PStuff} {c : LbCon AnyVar} {hints : List CId} {hs : List (LbCon AnyVar)}
    (hh : hints.mapM ps.proof.db.find = some hs) (hr : Spec.Rup hs c)
    (hm : ∀ k, Spec.Mentions c (.proof k) → k < ps.proof.nProofVars) :
    Lines ord ps (ps.push (.rup c hints)).2 ∧ (ps.push (.rup c hints)).2.proof.db = ps.proof.db ++ [some c] ∧
      (ps.push (.rup c hints)).2.proof.db.get (ps.push (.rup c hints)).1 = some c :=
  lines_new (s := .rup c hints) ⟨hs, hh, hr⟩ rfl rfl
    (fun ρ hρ => Spec.Rup.sound hr fun d hd => hρ d (mapM_find_mem hh d hd)) fun _ => hm

/-- Constraints that were derived are removed. -/
theorem Lines.del {ps ps₁ : PStuff} (h : Lines ord ps ps₁) {ids : List Nat}
    (hi : ∀ i ∈ ids, ps.proof.db.length < i ∧ (ps₁.proof.db.get i).isSome) : Lines ord ps (ps₁.write (.del ids [])) := by
  have hdb : (ps₁.write (.del ids [])).proof.db = ps₁.proof.db.delete ids := rfl
  have hlive : ∀ c ∈ Spec.live (ps₁.write (.del ids [])).proof.db, c ∈ Spec.live ps₁.proof.db := by
    intro c hc
    obtain ⟨i, hi'⟩ := get_of_mem_live hc
    by_cases hm : i ∈ ids
    · rw [hdb, ConDb.get_deleted hm] at hi'; cases hi'
    · rw [hdb, ConDb.get_delete hm] at hi'
      exact mem_live_of_get hi'
  refine ⟨h.writes.trans (Spec.Writes.step (.del ids []) (fun i hm => (hi i hm).2) rfl rfl), fun i c hc => ?_,
    fun hf c hc k hm => h.fresh hf c (hlive c hc) k hm, fun ρ hρ c hc => h.sound ρ hρ c (hlive c hc), h.values, h.bounds,
    h.nVars, by rw [hdb, ConDb.delete_length]; exact h.length⟩
  have := ConDb.get_lt hc
  rw [hdb, ConDb.get_delete (fun hm => by have := (hi i hm).1; omega)]
  exact h.keeps _ _ hc

/-- What is given to the solver does not matter. -/
theorem Lines.added {ps ps₁ : PStuff} (h : Lines ord ps ps₁) (c : Clause) (id : Nat) : Lines ord ps (ps₁.addCert c id) :=
  ⟨h.writes, h.keeps, h.fresh, h.sound, h.values, h.bounds, h.nVars, h.length⟩

theorem Lines.addedFrom {ps ps₁ : PStuff} {c : Clause} {id : Nat} (h : Lines ord (ps.addCert c id) ps₁) : Lines ord ps ps₁ :=
  ⟨h.writes, h.keeps, h.fresh, h.sound, h.values, h.bounds, h.nVars, h.length⟩

end Scuttle
