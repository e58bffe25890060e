import Verif.Proof.BlockLog
import Verif.Proof.OllLog

/-!
# Lines that derive constraints

Constraints derived from those in a proof, one line after the other, and removed again.
-/

set_option linter.unusedSectionVars false

namespace Scuttle

variable {ord : (AnyVar → Bool) → (AnyVar → Bool) → Prop} {objs : List Objective} {base : Assignment}

/-! ## What derived constraints mention -/

theorem LbCon.mentions_norm {V : Type} [DecidableEq V] {c : LbCon V} {f : Int × Axm V → Int × Axm V} {b : Int} {v : V}
    (hf : ∀ p, (f p).2 = p.2) (h : Spec.Mentions (⟨c.norm.lits.map f, b⟩ : LbCon V) v) : Spec.Mentions c v := by
  obtain ⟨p, hp, rfl⟩ := h
  obtain ⟨q, hq, rfl⟩ := List.mem_map.1 hp
  obtain ⟨u, hu, rfl⟩ := List.mem_map.1 hq
  rw [hf]
  have : (LbCon.term u (c.coefAt u)).2.var = u := by unfold LbCon.term; split <;> rfl
  rw [this]
  exact LbCon.mem_vars.1 hu

theorem ConDb.find_mem {db : ConDb AnyVar} {i : CId} {c : LbCon AnyVar} (h : db.find i = some c) : c ∈ Spec.live db := by
  cases i with
  | abs i => exact mem_live_of_get h
  | last n =>
    simp only [ConDb.find, Option.ite_none_left_eq_some, Option.ite_none_right_eq_some] at h
    exact mem_live_of_get h.2.2

theorem Ops.eval_mentions {db : ConDb AnyVar} : ∀ {o : Ops} {c : LbCon AnyVar} {v : AnyVar}, o.eval db = some c →
    Spec.Mentions c v → ∃ d ∈ Spec.live db, Spec.Mentions d v := by
  intro o
  induction o with
  | empty => intro c v hc; simp [Ops.eval] at hc
  | id i =>
    intro c v hc hm
    exact ⟨c, ConDb.find_mem hc, hm⟩
  | add a b iha ihb =>
    intro c v hc hm
    simp only [Ops.eval, Option.bind_eq_bind, Option.bind_eq_some_iff, Option.some.injEq] at hc
    obtain ⟨x, hx, y, hy, rfl⟩ := hc
    obtain ⟨p, hp, rfl⟩ := hm
    rcases List.mem_append.1 hp with hp | hp
    · exact iha hx ⟨p, hp, rfl⟩
    · exact ihb hy ⟨p, hp, rfl⟩
  | mul a n ih =>
    intro c v hc hm
    simp only [Ops.eval, Option.map_eq_some_iff] at hc
    obtain ⟨x, hx, rfl⟩ := hc
    obtain ⟨p, hp, rfl⟩ := hm
    obtain ⟨q, hq, rfl⟩ := List.mem_map.1 hp
    exact ih hx ⟨q, hq, rfl⟩
  | div a n ih =>
    intro c v hc hm
    simp only [Ops.eval] at hc
    split at hc
    · cases hc
    · obtain ⟨x, hx, rfl⟩ := Option.map_eq_some_iff.1 hc
      exact ih hx (LbCon.mentions_norm (f := fun p => (LbCon.ceilDiv p.1 n, p.2)) (fun _ => rfl) hm)
  | saturate a ih =>
    intro c v hc hm
    simp only [Ops.eval, Option.map_eq_some_iff] at hc
    obtain ⟨x, hx, rfl⟩ := hc
    exact ih hx (LbCon.mentions_norm (f := fun p => (min p.1 (max x.degree 0), p.2)) (fun _ => rfl) hm)

theorem mapM_find_mem {db : ConDb AnyVar} : ∀ {ids : List CId} {hs : List (LbCon AnyVar)}, ids.mapM db.find = some hs →
    ∀ c ∈ hs, c ∈ Spec.live db
  | [], hs, h, c, hc => by
    simp only [List.mapM_nil] at h
    cases h
    cases hc
  | i :: ids, hs, h, c, hc => by
    rw [List.mapM_cons] at h
    obtain ⟨x, hx, h⟩ := Option.bind_eq_some_iff.1 h
    obtain ⟨xs, hxs, h⟩ := Option.bind_eq_some_iff.1 h
    cases h
    rcases List.mem_cons.1 hc with rfl | hc
    · exact ConDb.find_mem hx
    · exact mapM_find_mem hxs c hc

/-! ## Lines -/

/-- Lines that only derive constraints and remove constraints that were derived. -/
structure Deduces (ord : (AnyVar → Bool) → (AnyVar → Bool) → Prop) (objs : List Objective) (base : Assignment)
    (ps ps' : PStuff) : Prop where
  writes : Spec.Writes ord ps ps'
  keeps : Spec.Keeps ps ps'
  state : Spec.LogState objs base ps'
  values : ps'.valueMap = ps.valueMap
  bounds : ps'.bounds = ps.bounds
  nVars : ps'.proof.nProofVars = ps.proof.nProofVars
  length : ps.proof.db.length ≤ ps'.proof.db.length

theorem Deduces.refl {ps : PStuff} (h : Spec.LogState objs base ps) : Deduces ord objs base ps ps :=
  ⟨Spec.Writes.refl ord ps, Spec.Keeps.refl ps, h, rfl, rfl, rfl, le_refl _⟩

theorem Deduces.trans {ps ps' ps'' : PStuff} (h : Deduces ord objs base ps ps') (h' : Deduces ord objs base ps' ps'') :
    Deduces ord objs base ps ps'' :=
  ⟨h.writes.trans h'.writes, h.keeps.trans h'.keeps, h'.state, h'.values.trans h.values, h'.bounds.trans h.bounds,
    h'.nVars.trans h.nVars, h.length.trans h'.length⟩

theorem Spec.LogState.extend {ps ps' : PStuff} (h : Spec.LogState objs base ps) (hk : Spec.Keeps ps ps')
    (hv : ps'.valueMap = ps.valueMap) (hb : ps'.bounds = ps.bounds) (hn : ps'.proof.nProofVars = ps.proof.nProofVars)
    (hl : ∀ c ∈ Spec.live ps'.proof.db, c ∈ Spec.live ps.proof.db ∨
      ((∀ ρ, (∀ d ∈ Spec.live ps.proof.db, d.Holds ρ) → c.Holds ρ) ∧
        ∀ k, Spec.Mentions c (.proof k) → k < ps.proof.nProofVars)) :
    Spec.LogState objs base ps' where
  bounds := h.bounds.mono hk hb (by rw [hn]) fun x hx => by rw [hv]; exact hx
  fresh := fun c hc k hm => by
    rw [hn]
    rcases hl c hc with hc | ⟨_, hc⟩
    · exact h.fresh c hc k hm
    · exact hc k hm
  keys := by rw [hv]; exact h.keys
  below := by rw [hv, hn]; exact h.below
  identical := by rw [hv]; exact h.identical
  solves := fun ρ hw hm c hc => by
    rw [hv] at hw hm
    have hall := h.solves ρ hw hm
    rcases hl c hc with hc | ⟨hc, _⟩
    · exact hall c hc
    · exact hc ρ hall

theorem deduces_new {ps ps' : PStuff} (h : Spec.LogState objs base ps) {s : ProofStep AnyVar} {c : LbCon AnyVar}
    (hs : Spec.StepOk ord ps.proof.db s) (happ : s.apply ps.proof.db = ps.proof.db ++ [some c])
    (hps : ps' = (ps.push s).2) (himp : ∀ ρ, (∀ d ∈ Spec.live ps.proof.db, d.Holds ρ) → c.Holds ρ)
    (hm : ∀ k, Spec.Mentions c (.proof k) → k < ps.proof.nProofVars) :
    Deduces ord objs base ps ps' ∧ ps'.proof.db = ps.proof.db ++ [some c] ∧
      ps'.proof.db.get (ps.push s).1 = some c := by
  subst hps
  have hdb : (ps.push s).2.proof.db = ps.proof.db ++ [some c] := happ
  have hk : Spec.Keeps ps (ps.push s).2 := fun i d hd => by rw [hdb]; exact ConDb.get_append _ hd
  refine ⟨⟨Spec.Writes.step s hs rfl rfl, hk, h.extend hk rfl rfl rfl fun d hd => ?_, rfl, rfl, rfl, by rw [hdb]; simp⟩, hdb, ?_⟩
  · rw [hdb, live_append] at hd
    rcases hd with hd | rfl
    · exact Or.inl hd
    · exact Or.inr ⟨himp, hm⟩
  · rw [hdb]; exact ConDb.get_new _ _

theorem deduces_pol {ps : PStuff} (h : Spec.LogState objs base ps) {o : Ops} {c : LbCon AnyVar}
    (ho : o.eval ps.proof.db = some c) :
    Deduces ord objs base ps (ps.push (.pol o)).2 ∧ (ps.push (.pol o)).2.proof.db = ps.proof.db ++ [some c] ∧
      (ps.push (.pol o)).2.proof.db.get (ps.push (.pol o)).1 = some c := by
  refine deduces_new h (s := .pol o) ?_ ?_ rfl (fun ρ hρ => Ops.eval_sound (fun i d hd => hρ d (ConDb.find_mem hd)) ho)
    fun k hk => ?_
  · show (o.eval ps.proof.db).isSome
    rw [ho]; rfl
  · show ps.proof.db ++ [o.eval ps.proof.db] = _
    rw [ho]
  · obtain ⟨d, hd, hm⟩ := Ops.eval_mentions ho hk
    exact h.fresh d hd k hm

theorem deduces_rup {ps : PStuff} (h : Spec.LogState objs base ps) {c : LbCon AnyVar} {hints : List CId}
    {hs : List (LbCon AnyVar)} (hh : hints.mapM ps.proof.db.find = some hs) (hr : Spec.Rup hs c)
    (hm : ∀ k, Spec.Mentions c (.proof k) → k < ps.proof.nProofVars) :
    Deduces ord objs base ps (ps.push (.rup c hints)).2 ∧ (ps.push (.rup c hints)).2.proof.db = ps.proof.db ++ [some c] ∧
      (ps.push (.rup c hints)).2.proof.db.get (ps.push (.rup c hints)).1 = some c :=
  deduces_new h (s := .rup c hints) ⟨hs, hh, hr⟩ rfl rfl
    (fun ρ hρ => Spec.Rup.sound hr fun d hd => hρ d (mapM_find_mem hh d hd)) hm

/-- Constraints that were derived are removed. -/
theorem Deduces.del {ps ps₁ : PStuff} (hl : Spec.LogState objs base ps) (h : Deduces ord objs base ps ps₁) {ids : List Nat}
    (hi : ∀ i ∈ ids, ps.proof.db.length < i ∧ (ps₁.proof.db.get i).isSome) :
    Deduces ord objs base ps (ps₁.write (.del ids [])) := by
  have hdb : (ps₁.write (.del ids [])).proof.db = ps₁.proof.db.delete ids := rfl
  have hk : Spec.Keeps ps (ps₁.write (.del ids [])) := fun i c hc => by
    have := ConDb.get_lt hc
    rw [hdb, ConDb.get_delete (fun hm => by have := (hi i hm).1; omega)]
    exact h.keeps _ _ hc
  refine ⟨h.writes.trans (Spec.Writes.step (.del ids []) (fun i hm => (hi i hm).2) rfl rfl), hk, ?_, h.values, h.bounds, h.nVars,
    by rw [hdb, ConDb.delete_length]; exact h.length⟩
  have hlive : ∀ c ∈ Spec.live (ps₁.write (.del ids [])).proof.db, c ∈ Spec.live ps₁.proof.db := by
    intro c hc
    obtain ⟨i, hi'⟩ := get_of_mem_live hc
    by_cases hm : i ∈ ids
    · rw [hdb, ConDb.get_deleted hm] at hi'; cases hi'
    · rw [hdb, ConDb.get_delete hm] at hi'
      exact mem_live_of_get hi'
  refine ⟨hl.bounds.mono hk h.bounds (le_of_eq h.nVars.symm) fun x hx => ?_, fun c hc k hm => h.state.fresh c (hlive c hc) k hm,
    h.state.keys, h.state.below, h.state.identical, fun ρ hw hm c hc => h.state.solves ρ hw hm c (hlive c hc)⟩
  show x ∈ ps₁.valueMap
  rw [h.values]
  exact hx

end Scuttle
