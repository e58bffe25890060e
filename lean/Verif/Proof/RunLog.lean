import Verif.Props.BlockLog
import Verif.Props.Tracer
import Verif.SpecRunLog

/-!
# Lemmas on whole proofs
-/

set_option linter.unusedSectionVars false

namespace Scuttle

open Spec (BlockItem CutItem valuesBelow)

variable {objs : List Objective} {ext : Asg → Asg} {maxEncVar : Nat} {debug : Bool} {a₀ : Asg} {base : Assignment}

theorem valuesBelow_get (ext : Asg → Asg) (a : Asg) (n v : Nat) :
    (valuesBelow ext a n)[v]? = if v < n then some (TV.ofBool (ext a v)) else none := by
  unfold valuesBelow
  rw [List.getElem?_map]
  split
  · next h => rw [List.getElem?_range h]; rfl
  · next h => rw [List.getElem?_eq_none (by simp; omega)]; rfl

theorem agrees_valuesBelow {a : Asg} {n : Nat} {m : List (Axm AnyVar × ProofVal)} {ρ : AnyVar → Bool} :
    Spec.WitnessAgrees (valuesBelow ext a n) m ρ ↔
      ∀ v < n, (∀ p ∈ m, p.1.var ≠ .solver v) → ρ (.solver v) = ext a v := by
  constructor
  · intro h v hv hk
    exact h v _ (by rw [valuesBelow_get, if_pos hv]) hk
  · intro h v b hv hk
    rw [valuesBelow_get] at hv
    split at hv
    · next hlt => rw [h v hlt hk]; exact ofBool_inj (Option.some.inj hv)
    · cases hv

theorem Spec.LogState.rebase {base base' : Assignment} {ps : PStuff} (h : Spec.LogState objs base ps)
    (hw : ∀ ρ, Spec.WitnessAgrees base' ps.valueMap ρ → Spec.WitnessAgrees base ps.valueMap ρ) :
    Spec.LogState objs base' ps :=
  ⟨h.bounds, h.fresh, h.keys, h.below, h.identical, fun ρ h1 h2 => h.solves ρ (hw ρ h1) h2⟩

theorem Spec.LogState.more {a : Asg} {n n' : Nat} {ps : PStuff} (h : Spec.LogState objs (valuesBelow ext a n) ps)
    (hn : n ≤ n') : Spec.LogState objs (valuesBelow ext a n') ps :=
  h.rebase fun _ h' => agrees_valuesBelow.2 fun v hv => agrees_valuesBelow.1 h' v (by omega)

theorem Spec.HasValues.state {st : PStuff × Nat} (h : Spec.HasValues ext a₀ base st)
    (hl : Spec.LogState objs (valuesBelow ext a₀ st.2) st.1) : Spec.LogState objs base st.1 :=
  hl.rebase fun _ h' => agrees_valuesBelow.2 fun v hv hk => h' v _ (h v hv hk) hk

theorem Spec.GrowOk.state {st st' : PStuff × Nat} (h : Spec.GrowOk objs ext st st') {a : Asg}
    (hl : Spec.LogState objs (valuesBelow ext a st.2) st.1) : Spec.LogState objs (valuesBelow ext a st'.2) st'.1 where
  bounds := hl.bounds.mono h.keeps h.bounds h.nVars fun x hx => by rw [h.values]; exact hx
  fresh := fun c hc k hm => by
    by_cases ho : c ∈ Spec.live st.1.proof.db
    · exact Nat.lt_of_lt_of_le (hl.fresh c ho k hm) h.nVars
    · exact h.fresh c hc ho k hm
  keys := by rw [h.values]; exact hl.keys
  below := fun p hp k hk => Nat.lt_of_lt_of_le (hl.below p (by rw [← h.values]; exact hp) k hk) h.nVars
  identical := by rw [h.values]; exact hl.identical
  solves := fun ρ h1 h2 => by
    refine h.sound a ρ h1 (hl.solves ρ ?_ (by rw [← h.values]; exact h2))
    rw [h.values] at h1
    exact agrees_valuesBelow.2 fun v hv => agrees_valuesBelow.1 h1 v (Nat.lt_of_lt_of_le hv h.next)

theorem Spec.NewVar.other {ps : PStuff} {v : Nat} (h : Spec.NewVar objs base maxEncVar ps v) (ext : Asg → Asg) (a : Asg) :
    Spec.NewVar objs (valuesBelow ext a v) maxEncVar ps v :=
  ⟨h.fresh, fun b hb => (by rw [valuesBelow_get, if_neg (Nat.lt_irrefl v)] at hb; cases hb), h.above⟩

/-- What the blocking clause needs follows from what is expected along the run. -/
theorem runAllowed_block : ∀ {items : List BlockItem} {st : PStuff × Nat},
    Spec.RunAllowed objs ext a₀ base maxEncVar debug items st → (∀ it ∈ items, objs[it.obj.obj.idx]? = some it.obj.obj) →
    Spec.LogState objs (valuesBelow ext a₀ st.2) st.1 → Spec.BlockAllowed objs base maxEncVar debug items st
  | [], _, _, _, _ => trivial
  | it :: items, st, h, ho, hl => by
    unfold Spec.RunAllowed at h
    unfold Spec.BlockAllowed
    have ho' := fun i hi => ho i (List.mem_cons_of_mem _ hi)
    by_cases hskip : it.cost ≤ it.enc.view.offset ∨ it.enc.constant = true
    · rw [if_pos hskip] at h ⊢
      exact ⟨h.1, h.2.1, runAllowed_block h.2.2 ho' hl⟩
    · rw [if_neg hskip] at h ⊢
      obtain ⟨hg, hc, hK, hlb, h⟩ := h
      have hs := hg.state hl
      refine ⟨⟨hg.writes, hg.keeps, hc.state hs, hg.values, hg.bounds, hg.certified⟩, hK, hlb, fun as hen => ?_⟩
      obtain ⟨h1, h2⟩ := h as hen
      refine ⟨fun l hl => ⟨(h1 l hl).1, runAllowed_block (h1 l hl).2 ho' hs⟩, fun hlen => ?_⟩
      obtain ⟨k1, k2, ⟨sum, offset, total, hR⟩, k4, k5, k6⟩ := h2 hlen
      refine ⟨k1, k2, ⟨sum, offset, total, hR⟩, k4, k5, fun id ps hr => ?_⟩
      have G := reification_step hr hs (ho it (List.mem_cons_self ..)) (k5.other ext a₀) hR k4
      exact runAllowed_block (k6 id ps hr) ho' (G.state.more (Nat.le_succ _))

/-- Other solutions keep satisfying the proof while the clause is built. -/
theorem dominatedBlock_state {a : Asg} : ∀ {items : List BlockItem} {st st' : PStuff × Nat} {cls : Clause} {ids : List Nat},
    dominatedBlock debug (items.map BlockItem.enc) (items.map BlockItem.obj) (items.map BlockItem.cost) st =
      some (cls, ids, st') →
    Spec.RunAllowed objs ext a₀ base maxEncVar debug items st → (∀ it ∈ items, objs[it.obj.obj.idx]? = some it.obj.obj) →
    Spec.LogState objs (valuesBelow ext a st.2) st.1 →
    Spec.LogState objs (valuesBelow ext a st'.2) st'.1 ∧ st.2 ≤ st'.2
  | [], st, st', cls, ids, h, _, _, hl => by
    simp only [List.map_nil, dominatedBlock, Option.some.injEq, Prod.mk.injEq] at h
    obtain ⟨rfl, rfl, rfl⟩ := h
    exact ⟨hl, le_refl _⟩
  | it :: items, st, st', cls, ids, h, ha, ho, hl => by
    simp only [List.map_cons, dominatedBlock] at h
    unfold Spec.RunAllowed at ha
    have ho' := fun i hi => ho i (List.mem_cons_of_mem _ hi)
    by_cases hskip : it.cost ≤ it.enc.view.offset ∨ it.enc.constant = true
    · rw [if_pos hskip] at ha
      have hd : dominatedBlock debug (items.map BlockItem.enc) (items.map BlockItem.obj) (items.map BlockItem.cost) st =
          some (cls, ids, st') := by
        rcases hskip with hs | hs
        · rw [if_pos hs] at h; exact h
        · rw [if_pos hs, ite_self] at h; exact h
      exact dominatedBlock_state hd ha.2.2 ho' hl
    · rw [if_neg hskip] at ha
      rw [not_or] at hskip
      rw [if_neg hskip.1, if_neg hskip.2] at h
      obtain ⟨hg, -, -, -, ha⟩ := ha
      obtain ⟨assumps, hen, h⟩ := Option.bind_eq_some_iff.1 h
      obtain ⟨ha1, ha2⟩ := ha assumps hen
      have hs := hg.state hl
      have hn := hg.next
      generalize it.enc.grow (it.cost - 1) st = st₁ at *
      by_cases hlen : assumps.length = 1
      · obtain ⟨l, rfl⟩ := List.length_eq_one_iff.1 hlen
        simp only at h
        obtain ⟨⟨cls₁, ids₁, st₂⟩, h1, h⟩ := Option.bind_eq_some_iff.1 h
        simp only [Option.some.injEq, Prod.mk.injEq] at h
        obtain ⟨rfl, rfl, rfl⟩ := h
        obtain ⟨g1, g2⟩ := dominatedBlock_state h1 (ha1 l rfl).2 ho' hs
        exact ⟨g1, by omega⟩
      · obtain ⟨-, -, ⟨sum, offset, total, hR⟩, hA, hN, ha⟩ := ha2 hlen
        split at h
        · simp at hlen
        · split at h
          · cases h
          · obtain ⟨⟨id, ps₂⟩, h1, h⟩ := Option.bind_eq_some_iff.1 h
            obtain ⟨⟨cls₁, ids₁, st₂⟩, h2, h⟩ := Option.bind_eq_some_iff.1 h
            simp only [Option.some.injEq, Prod.mk.injEq] at h
            obtain ⟨rfl, rfl, rfl⟩ := h
            have G := reification_step h1 hs (ho it (List.mem_cons_self ..)) (hN.other ext a) hR hA
            obtain ⟨g1, g2⟩ := dominatedBlock_state (st := (ps₂, st₁.2 + 1)) h2 (ha id ps₂ h1) ho'
              (G.state.more (Nat.le_succ _))
            exact ⟨g1, by simp only at g2; omega⟩

theorem cutDatum_state {enc : EncView} {o : PObj} {cst : Nat} {ps ps' : PStuff} {dat : Option (Axm AnyVar) × Option Nat}
    (h : cutDatum debug enc o cst ps = some (dat, ps')) (ho : objs[o.obj.idx]? = some o.obj)
    (hl : Spec.LogState objs base ps) : Grows (Spec.ParetoOrder objs) objs base ps ps' := by
  unfold cutDatum at h
  split at h
  · split at h
    · cases h
    · cases h; exact Grows.refl hl
  · split at h
    · split at h
      · cases h
      · cases h; exact Grows.refl hl
    · split at h
      · obtain ⟨ls, _, h⟩ := Option.bind_eq_some_iff.1 h
        obtain ⟨l, _, h⟩ := Option.bind_eq_some_iff.1 h
        cases h; exact Grows.refl hl
      · split at h
        · obtain ⟨⟨olit, defs⟩, _, h⟩ := Option.bind_eq_some_iff.1 h
          simp only at h
          split at h
          · cases h
          · cases h; exact Grows.refl hl
        · obtain ⟨k, d₁, d₂, q, h1, -, -, -, G⟩ := getObjBound_logState (value := cst) (paretoOrder_solver objs) ho hl
          rw [h1] at h
          cases h
          exact G

theorem cutData_state : ∀ {items : List BlockItem} {ps ps' : PStuff} {ds : List (Option (Axm AnyVar) × Option Nat)},
    cutData debug ((items.map BlockItem.enc).map BlockEnc.view) (items.map BlockItem.obj) (items.map BlockItem.cost) ps =
      some (ds, ps') → (∀ it ∈ items, objs[it.obj.obj.idx]? = some it.obj.obj) →
    Spec.LogState objs base ps → Grows (Spec.ParetoOrder objs) objs base ps ps'
  | [], ps, ps', ds, h, _, hl => by
    simp only [List.map_nil, cutData, Option.some.injEq, Prod.mk.injEq] at h
    obtain ⟨-, rfl⟩ := h
    exact Grows.refl hl
  | it :: items, ps, ps', ds, h, ho, hl => by
    simp only [List.map_cons, cutData] at h
    obtain ⟨⟨d, q₁⟩, h1, h⟩ := Option.bind_eq_some_iff.1 h
    obtain ⟨⟨ds', q₂⟩, h2, h⟩ := Option.bind_eq_some_iff.1 h
    simp only [Option.some.injEq, Prod.mk.injEq] at h
    obtain ⟨rfl, rfl⟩ := h
    have G := cutDatum_state h1 (ho it (List.mem_cons_self ..)) hl
    exact G.trans (cutData_state h2 (fun i hi => ho i (List.mem_cons_of_mem _ hi)) G.state)

/-! ## Lines of the SAT solver -/

theorem find_live {db : ConDb AnyVar} {i : CId} {c : LbCon AnyVar} (h : db.find i = some c) : c ∈ Spec.live db := by
  cases i with
  | abs i => exact mem_live_of_get h
  | last n =>
    unfold ConDb.find at h
    simp only at h
    split at h
    · cases h
    · split at h
      · exact mem_live_of_get h
      · cases h

theorem live_delete {db : ConDb AnyVar} {ids : List Nat} {c : LbCon AnyVar} (h : c ∈ Spec.live (db.delete ids)) :
    c ∈ Spec.live db := by
  rw [mem_live] at h ⊢
  unfold ConDb.delete at h
  obtain ⟨i, hi, he⟩ := List.mem_mapIdx.1 h
  split at he
  · cases he
  · rw [← he]; exact List.getElem_mem hi

theorem mapM_find_live {db : ConDb AnyVar} : ∀ {ids : List CId} {hs : List (LbCon AnyVar)}, ids.mapM db.find = some hs →
    ∀ d ∈ hs, d ∈ Spec.live db
  | [], hs, h, d, hd => by simp at h; subst h; cases hd
  | i :: ids, hs, h, d, hd => by
    rw [List.mapM_cons] at h
    obtain ⟨x, h1, h⟩ := Option.bind_eq_some_iff.1 h
    obtain ⟨xs, h2, h⟩ := Option.bind_eq_some_iff.1 h
    cases h
    rcases List.mem_cons.1 hd with rfl | hd
    · exact find_live h1
    · exact mapM_find_live h2 d hd

/-- Constraints that are derived hold where the constraints before hold. -/
theorem derivation_sound {ord} : ∀ {new : List (ProofStep AnyVar)} {db : ConDb AnyVar}, Spec.Accepted ord db new →
    (∀ s ∈ new, Spec.Derivation s) → ∀ {ρ : AnyVar → Bool}, (∀ c ∈ Spec.live db, c.Holds ρ) →
    ∀ c ∈ Spec.live (new.foldl (fun db st => st.apply db) db), c.Holds ρ
  | [], _, _, _, _, h => h
  | s :: new, db, ha, hd, ρ, h => by
    refine derivation_sound ha.2 (fun s' hs => hd s' (List.mem_cons_of_mem _ hs)) fun c hc => ?_
    have hok := ha.1
    have hds := hd s (List.mem_cons_self ..)
    cases s with
    | pol o =>
      simp only [ProofStep.apply] at hc
      cases he : o.eval db with
      | none => rw [Spec.StepOk, he] at hok; cases hok
      | some x =>
        rw [he] at hc
        rcases (live_append _ _).1 hc with hc | rfl
        · exact h c hc
        · exact pol_implied he h
    | rup x hints =>
      obtain ⟨hs, h1, h2⟩ := hok
      rcases (live_append _ _).1 hc with hc | rfl
      · exact h c hc
      · exact rup_implied h2 fun d hd => h d (mapM_find_live h1 d hd)
    | red _ _ _ => cases hds
    | solx _ _ => cases hds
    | core ids => exact h c hc
    | del ids gs => exact h c (live_delete hc)

theorem Spec.SolverOk.writes {ps ps' : PStuff} (h : Spec.SolverOk objs ps ps') :
    Spec.Writes (Spec.ParetoOrder objs) ps ps' := by
  obtain ⟨new, h1, h2, h3, -⟩ := h.lines
  exact ⟨new, h1, h2, h3⟩

theorem Spec.SolverOk.state {ps ps' : PStuff} (h : Spec.SolverOk objs ps ps') (hl : Spec.LogState objs base ps) :
    Spec.LogState objs base ps' where
  bounds := by
    intro idx value lit d₁ d₂ hm
    rw [h.bounds] at hm
    obtain ⟨obj, k, h1, h2, h3, h4, h5, h6, h7⟩ := hl.bounds idx value lit d₁ d₂ hm
    obtain ⟨e₁, e₂⟩ := h.defs _ lit d₁ d₂ hm
    exact ⟨obj, k, h1, h2, h3, by rw [h.nVars]; exact h4, by rw [e₁]; exact h5, by rw [e₂]; exact h6, by rw [h.values]; exact h7⟩
  fresh := fun c hc k hm => by
    rw [h.nVars]
    by_cases ho : c ∈ Spec.live ps.proof.db
    · exact hl.fresh c ho k hm
    · exact h.fresh c hc ho k hm
  keys := by rw [h.values]; exact hl.keys
  below := by rw [h.values, h.nVars]; exact hl.below
  identical := by rw [h.values]; exact hl.identical
  solves := fun ρ h1 h2 => by
    obtain ⟨new, -, g2, g3, g4⟩ := h.lines
    rw [h.values] at h1 h2
    rw [g3]
    exact derivation_sound g2 g4 (hl.solves ρ h1 h2)

/-! ## Recorded meanings can be met -/

/-- The values of recorded variables, given the others. -/
def recorded (objs : List Objective) (m : List (Axm AnyVar × ProofVal)) (ρ : AnyVar → Bool) : AnyVar → Bool := fun x =>
  match m.find? fun p => p.1.var = x with
  | none => ρ x
  | some (this, .identical that) => if (toAxm that).val ρ = 1 then !this.neg else this.neg
  | some (this, .objAtLeast i value) =>
    match objs[i]? with
    | none => ρ x
    | some o => if value ≤ Spec.objSum o ρ then !this.neg else this.neg

theorem recorded_other {m : List (Axm AnyVar × ProofVal)} {ρ : AnyVar → Bool} {x : AnyVar} (h : ∀ p ∈ m, p.1.var ≠ x) :
    recorded objs m ρ x = ρ x := by
  unfold recorded
  rw [List.find?_eq_none.2 (fun p hp => by simpa using h p hp)]

theorem find_nodup {m : List (Axm AnyVar × ProofVal)} (hnd : (m.map fun p => p.1.var).Nodup) {p : Axm AnyVar × ProofVal}
    (hp : p ∈ m) : (m.find? fun q => q.1.var = p.1.var) = some p := by
  induction m with
  | nil => cases hp
  | cons q m ih =>
    rw [List.map_cons, List.nodup_cons] at hnd
    rcases List.mem_cons.1 hp with rfl | hp
    · simp
    · rw [List.find?_cons_of_neg, ih hnd.2 hp]
      simp only [decide_eq_true_eq]
      intro he
      exact hnd.1 (he ▸ List.mem_map_of_mem hp)

theorem recorded_meaning {m : List (Axm AnyVar × ProofVal)} {ρ : AnyVar → Bool} (hnd : (m.map fun p => p.1.var).Nodup)
    (hid : ∀ this that, (this, ProofVal.identical that) ∈ m → ∀ p ∈ m, p.1.var ≠ .solver that.var)
    (hobj : ∀ o ∈ objs, ∀ q ∈ o.iter, ∀ p ∈ m, p.1.var ≠ .solver q.1.var) :
    Spec.Meaning objs m (recorded objs m ρ) := by
  refine ⟨fun this that hm => ?_, fun this idx value hm o ho => ?_⟩
  · have h1 : recorded objs m ρ this.var = if (toAxm that).val ρ = 1 then !this.neg else this.neg := by
      unfold recorded
      rw [find_nodup hnd hm]
    have h2 : (toAxm that).val (recorded objs m ρ) = (toAxm that).val ρ := by
      unfold Axm.val
      rw [show (toAxm that).var = .solver that.var from rfl, recorded_other (hid this that hm)]
    rw [h2]
    unfold Axm.val at h1 ⊢
    rw [h1]
    by_cases hc : ρ (toAxm that).var = (toAxm that).neg <;> simp [hc]
  · have h1 : recorded objs m ρ this.var = if value ≤ Spec.objSum o ρ then !this.neg else this.neg := by
      unfold recorded
      rw [find_nodup hnd hm]
      simp only [ho]
    have h2 : Spec.objSum o (recorded objs m ρ) = Spec.objSum o ρ := by
      unfold Spec.objSum
      refine linear_congr fun q hq => ?_
      unfold Spec.solverAsg
      rw [recorded_other (hobj o (List.mem_of_getElem? ho) q hq)]
    rw [h2]
    unfold Axm.val
    rw [h1]
    by_cases hc : value ≤ Spec.objSum o ρ <;> simp [hc]

end Scuttle
