import Verif.Proof.BlockLog

/-!
# Blocking clauses in the proof (C52)
-/

set_option linter.unusedSectionVars false

namespace Scuttle

open Spec (BlockItem CutItem)

/-- The state before a blocking clause for a solution. -/
structure Spec.BlockStart (items : List BlockItem) (witness : Assignment) (maxEncVar : Nat) (debug : Bool)
    (st : PStuff × Nat) : Prop where
  idx : ∀ (j : Nat) it, items[j]? = some it → it.obj.obj.idx = j
  state : Spec.LogState (items.map fun it => it.obj.obj) (cutBase (items.map fun it => it.enc.view) witness) st.1
  keys : ∀ p ∈ st.1.valueMap, ∀ v, p.1.var = .solver v → maxEncVar < v
  extend : ∀ it ∈ items, ∀ l ∈ it.enc.view.extend witness, maxEncVar < l.var
  allowed : Spec.BlockAllowed (items.map fun it => it.obj.obj) (cutBase (items.map fun it => it.enc.view) witness) maxEncVar
    debug items st

theorem Spec.BlockStart.objs {items : List BlockItem} {witness : Assignment} {maxEncVar : Nat} {debug : Bool}
    {st : PStuff × Nat} (S : Spec.BlockStart items witness maxEncVar debug st) :
    ∀ it ∈ items, (items.map fun it => it.obj.obj)[it.obj.obj.idx]? = some it.obj.obj := by
  intro it hi
  obtain ⟨i, hlt, rfl⟩ := List.getElem_of_mem hi
  rw [S.idx i items[i] (List.getElem?_eq_getElem hlt), List.getElem?_map, List.getElem?_eq_getElem hlt]
  rfl

/-- Once the clause is built, the cut can be written. -/
theorem Spec.BlockStart.cut {items : List BlockItem} {witness : Assignment} {maxEncVar : Nat} {debug : Bool}
    {st st₁ : PStuff × Nat} (S : Spec.BlockStart items witness maxEncVar debug st)
    (G : BlockStep (items.map fun it => it.obj.obj) (cutBase (items.map fun it => it.enc.view) witness) maxEncVar st.1 st₁.1)
    (hK : ∀ it ∈ items, Spec.CutContract st₁.1.proof.db
      (Spec.WitnessAgrees (cutBase (items.map fun it => it.enc.view) witness) st₁.1.valueMap) it.enc.view it.obj it.cost
      it.encSum) : Spec.CutStart (items.map BlockItem.cut) witness maxEncVar st₁.1 := by
  have hobjs : (items.map BlockItem.cut).map CutItem.objective = items.map fun it => it.obj.obj := by
    rw [List.map_map]; rfl
  have hencs : (items.map BlockItem.cut).map CutItem.enc = items.map fun it => it.enc.view := by rw [List.map_map]; rfl
  refine ⟨fun j it hj => ?_, by rw [hobjs, hencs]; exact G.state, fun it hi => ?_, fun p hp v hv => ?_, fun it hi l hl => ?_⟩
  · rw [List.getElem?_map, Option.map_eq_some_iff] at hj
    obtain ⟨i, hi, rfl⟩ := hj
    exact S.idx j i hi
  · obtain ⟨i, hi', rfl⟩ := List.mem_map.1 hi
    rw [hencs]
    exact hK i hi'
  · rcases G.solver p hp v hv with hp | hlt
    · exact S.keys p hp v hv
    · exact hlt
  · obtain ⟨i, hi', rfl⟩ := List.mem_map.1 hi
    exact S.extend i hi' l hl

/-- C52. Without enumeration, the lines that P-minimization writes for a blocking clause are accepted by a checker: the
extensions of the encodings, the reifications, the cut and the clause itself. The clause goes to the solver together with
the identifier of its constraint, and it only excludes assignments that the solution weakly dominates.

Partial: an encoding that does not have all literals of its objective and gives a single assumption is excluded, see
`block_clause_buffered_counterexample`; with enumeration, see `permanent_block_rejected`. -/
theorem block_clause_accepted_partial {items : List BlockItem} {witness : Assignment} {maxEncVar : Nat} {debug : Bool}
    {st st' : PStuff × Nat} {cls : Clause} {cutId id : Nat} (S : Spec.BlockStart items witness maxEncVar debug st)
    (hu : ∀ it ∈ items, Spec.Unbuffered it)
    (h : permanentBlock debug (items.map BlockItem.enc) (items.map BlockItem.obj) (items.map BlockItem.cost) witness maxEncVar
      st = some (cls, cutId, id, st')) :
    Spec.Writes (Spec.ParetoOrder (items.map fun it => it.obj.obj)) st.1 st'.1 ∧ Spec.Keeps st.1 st'.1 ∧
    (∃ more, Spec.Certified st.1 st'.1 (more ++ [cls])) ∧ st'.1.proof.db.get id = some (clauseCon cls) ∧
    ∀ ρ, (∀ i c, i ≠ cutId → i ≠ id → st'.1.proof.db.get i = some c → c.Holds ρ) → ¬ (clauseCon cls).Holds ρ →
      Spec.WeaklyDominates (items.map fun it => (it.cost : Int)) (items.map fun it => (Spec.objSum it.obj.obj ρ : Int)) := by
  unfold permanentBlock at h
  obtain ⟨⟨cls₀, ids, st₁⟩, h1, h⟩ := Option.bind_eq_some_iff.1 h
  obtain ⟨⟨cutId₀, ps₂⟩, h2, h⟩ := Option.bind_eq_some_iff.1 h
  simp only [Option.some.injEq, Prod.mk.injEq] at h
  obtain ⟨rfl, rfl, rfl, rfl⟩ := h
  have hidx := S.objs
  obtain ⟨G, hK, hL, hids⟩ := dominatedBlock_spec h1 S.state hidx hu S.allowed
  have hobjs : (items.map BlockItem.cut).map CutItem.objective = items.map fun it => it.obj.obj := by
    rw [List.map_map]; rfl
  have hencs : (items.map BlockItem.cut).map CutItem.enc = items.map fun it => it.enc.view := by rw [List.map_map]; rfl
  have hobj : (items.map BlockItem.cut).map CutItem.obj = items.map BlockItem.obj := by rw [List.map_map]; rfl
  have hcost : (items.map BlockItem.cut).map CutItem.cost = items.map BlockItem.cost := by rw [List.map_map]; rfl
  have hviews : (items.map BlockItem.enc).map BlockEnc.view = items.map fun it => it.enc.view := by rw [List.map_map]; rfl
  have C : Spec.CutStart (items.map BlockItem.cut) witness maxEncVar st₁.1 := S.cut G hK
  have h2' := h2
  rw [hviews, ← hencs, ← hobj, ← hcost] at h2'
  obtain ⟨w1, w2, -, -, w5, cut, w6, w7, -⟩ := pmin_cut_accepted C h2'
  rw [hobjs] at w1
  obtain ⟨ds, ps₃, ω, q1, -, q3, -, q5, -⟩ := certifyPminCut_run h2
  have hcut : cut = ds.filterMap Prod.fst := by
    have : ps₂.proof.db.get (ps₃.proof.db.length + 3) = some (.clause (ds.filterMap Prod.fst)) := by
      rw [q5, ConDb.get_delete (by simp)]
      have := ConDb.get_new (ps₃.proof.db ++ [some (mapDomCon ω (ds.filterMap Prod.fst))] ++
        [some (LbCon.clause (ω.map Axm.not))]) (some (LbCon.clause (ds.filterMap Prod.fst)))
      simp only [List.length_append, List.length_cons, List.length_nil] at this
      exact this
    rw [← q3, w6] at this
    have he := Option.some.inj this
    unfold LbCon.clause at he
    have := congrArg LbCon.lits he
    simpa using List.map_injective_iff.2 (Prod.mk_right_injective (1 : Int)) this
  have hlink := cutData_linked q1 (fun _ _ h => h) hL
  rw [← hcut] at hlink
  obtain ⟨hs, m1, m2⟩ := mapM_get (db := ps₂.proof.db) (ids := ids ++ [cutId₀]) (by
    intro i hi
    rcases List.mem_append.1 hi with hi | hi
    · obtain ⟨c, hc⟩ := Option.isSome_iff_exists.1 (hids i hi)
      rw [w2 _ _ hc]; rfl
    · cases List.mem_singleton.1 hi
      rw [w6]; rfl)
  have hrup : Spec.Rup hs (clauseCon cls₀) := by
    refine rup_of_cut (m2 cutId₀ (by simp) _ w6) fun x hx => ?_
    obtain ⟨l, hl, h3⟩ := hlink x hx
    refine ⟨l, hl, ?_⟩
    rcases h3 with h3 | ⟨i, hi, c, hc, h4⟩
    · exact Or.inl h3
    · exact Or.inr ⟨c, m2 i (List.mem_append_left _ hi) c (w2 _ _ hc), h4⟩
  let ps₄ : PStuff := (ps₂.push (.rup (clauseCon cls₀) ((ids ++ [cutId₀]).map CId.abs))).2.addCert cls₀ (ps₂.proof.db.length + 1)
  have hdb : ps₄.proof.db = ps₂.proof.db ++ [some (clauseCon cls₀)] := rfl
  have hw : Spec.Writes (Spec.ParetoOrder (items.map fun it => it.obj.obj)) ps₂ ps₄ :=
    Spec.Writes.step (.rup (clauseCon cls₀) ((ids ++ [cutId₀]).map CId.abs)) ⟨hs, m1, hrup⟩ rfl rfl
  have hk : Spec.Keeps ps₂ ps₄ := fun i c hc => by rw [hdb]; exact ConDb.get_append _ hc
  have hget : ps₄.proof.db.get (ps₂.proof.db.length + 1) = some (clauseCon cls₀) := by rw [hdb]; exact ConDb.get_new _ _
  refine ⟨(G.writes.trans w1).trans hw, (G.keeps.trans w2).trans hk, ?_, hget, fun ρ hρ hc => ?_⟩
  · obtain ⟨more, hm⟩ := G.certified
    refine ⟨more, hm.trans ⟨[(cls₀, ps₂.proof.db.length + 1)], ?_, rfl, fun x hx => ?_⟩ (w2.trans hk)⟩
    · show ps₂.added ++ _ = _
      rw [w5]
      rfl
    · cases List.mem_singleton.1 hx
      exact hget
  · have hall : ∀ i c, i ≠ cutId₀ → ps₂.proof.db.get i = some c → c.Holds ρ := by
      intro i c hi hg
      refine hρ i c hi ?_ (hk _ _ hg)
      have := ConDb.get_lt hg
      show i ≠ ps₂.proof.db.length + 1
      omega
    have := w7 ρ hall (not_clause.2 fun x hx => ?_)
    · rw [List.map_map, List.map_map] at this
      exact this
    · obtain ⟨l, hl, h3⟩ := hlink x hx
      have hl0 := not_clause.1 hc (toAxm l) (List.mem_map_of_mem hl)
      rcases h3 with rfl | ⟨i, hi, c, hc', h4⟩
      · exact hl0
      · refine h4 ρ (hall i c ?_ (w2 _ _ hc')) hl0
        have q1' := q1
        rw [hviews, ← hencs, ← hobj, ← hcost] at q1'
        have := ConDb.get_lt ((C.run q1').1.keeps _ _ hc')
        omega

/-- C52. With enumeration, the clause that blocks the dominated solutions while a literal is assumed is accepted. -/
theorem temporary_block_accepted {items : List BlockItem} {witness : Assignment} {maxEncVar : Nat} {debug : Bool}
    {st st' : PStuff × Nat} {blockLit : Lit} {id : Nat} {ids : List Nat}
    (S : Spec.BlockStart items witness maxEncVar debug st) (hu : ∀ it ∈ items, Spec.Unbuffered it)
    (h : temporaryBlock debug (items.map BlockItem.enc) (items.map BlockItem.obj) (items.map BlockItem.cost) st =
      some (blockLit, id, ids, st'))
    (hf : ∀ r, dominatedBlock debug (items.map BlockItem.enc) (items.map BlockItem.obj) (items.map BlockItem.cost) st =
      some r → Spec.FreshVar (items.map fun it => it.obj.obj) r.2.2.1 r.2.2.2) :
    Spec.Writes (Spec.ParetoOrder (items.map fun it => it.obj.obj)) st.1 st'.1 ∧ Spec.Keeps st.1 st'.1 ∧
    ∃ cls, st'.1.proof.db.get id = some (clauseCon (cls ++ [blockLit.not])) ∧
      ∃ r, dominatedBlock debug (items.map BlockItem.enc) (items.map BlockItem.obj) (items.map BlockItem.cost) st = some r ∧
        r.1 = cls := by
  unfold temporaryBlock at h
  obtain ⟨⟨cls, ids₀, st₁⟩, h1, h⟩ := Option.bind_eq_some_iff.1 h
  simp only [Option.some.injEq, Prod.mk.injEq] at h
  obtain ⟨rfl, rfl, rfl, rfl⟩ := h
  have hidx := S.objs
  obtain ⟨G, -, -, -⟩ := dominatedBlock_spec h1 S.state hidx hu S.allowed
  have F := hf _ h1
  simp only at F
  let s : ProofStep AnyVar := .red (clauseCon (cls ++ [⟨st₁.2, false⟩])) [⟨.solver st₁.2, false⟩] []
  have hs : Spec.StepOk (Spec.ParetoOrder (items.map fun it => it.obj.obj)) st₁.1.proof.db s := by
    intro ρ hρ _
    rw [subst_single]
    refine ⟨fun d hd => ?_, ?_, paretoOrder_update F.objs ρ _⟩
    · refine (LbCon.holds_congr fun v hm => ?_).1 (hρ d hd)
      rw [Function.update_of_ne]
      rintro rfl; exact F.db d hd hm
    · unfold clauseCon
      rw [LbCon.holds_clause]
      refine ⟨toAxm ⟨st₁.2, false⟩, List.mem_map_of_mem (by simp), ?_⟩
      simp [toAxm]
  have hk : Spec.Keeps st₁.1 (st₁.1.push s).2 := fun i c hc => ConDb.get_append _ hc
  refine ⟨G.writes.trans (Spec.Writes.step s hs rfl rfl), G.keeps.trans hk, cls, ConDb.get_new _ _, _, h1, rfl⟩

/-- C52, violated: the line that makes a temporary block permanent is redundance for a unit clause without a substitution.
No checker can accept it if the literal of the clause can be false, such as for any solution that is not blocked and has the
literal that switches the blocking clause off. -/
theorem permanent_block_rejected {debug : Bool} {encs : List EncView} {objs : List PObj} {costs : List Nat}
    {witness : Assignment} {maxEncVar : Nat} {blockLit : Lit} {reifiedCut id : Nat} {reifIds : List Nat} {ps ps' : PStuff}
    (h : makePermanent debug encs objs costs witness maxEncVar blockLit reifiedCut reifIds ps = some (id, ps'))
    {ρ : AnyVar → Bool} (hρ : ∀ i c, i ≠ id → ps'.proof.db.get i = some c → c.Holds ρ) (hb : (toAxm blockLit).val ρ = 0)
    (ord : (AnyVar → Bool) → (AnyVar → Bool) → Prop) : ¬ Spec.Writes ord ps ps' := by
  unfold makePermanent at h
  obtain ⟨⟨cutId, ps₁⟩, h1, h⟩ := Option.bind_eq_some_iff.1 h
  simp only [Option.some.injEq, Prod.mk.injEq] at h
  obtain ⟨rfl, rfl⟩ := h
  intro hw
  have hs := (certifyPminCut_logs h1).last rfl hw
  have hfalse : ¬ (clauseCon [blockLit]).Holds ρ := not_clause.2 fun x hx => by
    cases List.mem_singleton.1 hx
    exact hb
  refine hfalse (hs ρ (fun d hd => ?_) hfalse).2.1
  obtain ⟨i, hi⟩ := get_of_mem_live hd
  refine hρ i d ?_ (ConDb.get_append _ hi)
  have := ConDb.get_lt hi
  show i ≠ ps₁.proof.db.length + 1
  omega

/-! ## Examples -/

/-- Two objectives: one with an encoding that gives two assumptions, and one with a single literal. -/
def blockItem₀ : BlockItem where
  enc := ⟨⟨true, 2, 0, reifEnc.details, reifEnc.nextHigher, fun v => if v = 0 then some [⟨2, true⟩, ⟨3, true⟩] else none,
    fun _ => [⟨2, false⟩, ⟨3, true⟩]⟩, false, fun _ st => st⟩
  obj := ⟨reifObj, none⟩
  cost := 1
  encSum := Spec.objSum reifObj

def blockItem₁ : BlockItem where
  enc := ⟨⟨true, 1, 0, fun _ => none, fun v => v + 4, fun _ => some [⟨1, false⟩], fun _ => []⟩, false, fun _ st => st⟩
  obj := ⟨.weighted 0 [(⟨1, true⟩, 4)] 1 0, none⟩
  cost := 4
  encSum := Spec.objSum (.weighted 0 [(⟨1, true⟩, 4)] 1 0)

def blockItems : List BlockItem := [blockItem₀, blockItem₁]

def blockWitness : Assignment := [.tt, .ff]

def blockObjs : List Objective := [reifObj, .weighted 0 [(⟨1, true⟩, 4)] 1 0]

def blockBase : Assignment := [.tt, .ff, .tt, .ff]

theorem blockStart_state : Spec.LogState blockObjs blockBase reifStart where
  bounds := fun _ _ _ _ _ h => by cases h
  fresh := reifStart_state.fresh
  keys := List.nodup_nil
  below := fun _ h => by cases h
  identical := fun _ _ h => by cases h
  solves := by
    intro ρ hw _ c hc
    have h0 : ρ (.solver 0) = true := hw 0 true (by decide) (by simp [reifStart])
    have h1 : ρ (.solver 1) = false := hw 1 false (by decide) (by simp [reifStart])
    have h2 : ρ (.solver 2) = true := hw 2 true (by decide) (by simp [reifStart])
    have h3 : ρ (.solver 3) = false := hw 3 false (by decide) (by simp [reifStart])
    rcases reifStart_mem hc with rfl | rfl | rfl <;> simp [LbCon.Holds, LbCon.lhs, Axm.val, h0, h1, h2, h3]

theorem blockStart_new : Spec.NewVar blockObjs blockBase 1 reifStart 4 where
  fresh := ⟨reifStart_fresh.db, fun o ho p hp => by
    simp only [blockObjs, List.mem_cons, List.not_mem_nil, or_false] at ho
    rcases ho with rfl | rfl
    · exact reifStart_fresh.objs reifObj (by simp) p hp
    · cases List.mem_singleton.1 hp; decide, reifStart_fresh.keys, reifStart_fresh.that⟩
  unset := fun b => by simp [blockBase]
  above := by decide

theorem blockStart_extend : Spec.ExtendOk blockObjs blockBase reifStart reifStart :=
  ⟨Spec.Writes.refl _ _, Spec.Keeps.refl _, blockStart_state, rfl, rfl, [], [], rfl, rfl, fun _ h => by cases h⟩

theorem blockStart_cut₀ : Spec.CutContract reifStart.proof.db (Spec.WitnessAgrees blockBase reifStart.valueMap)
    blockItem₀.enc.view blockItem₀.obj blockItem₀.cost blockItem₀.encSum where
  cost := by
    intro ρ hw
    have h0 : ρ (.solver 0) = true := hw 0 true (by decide) (by simp [reifStart])
    have h1 : ρ (.solver 1) = false := hw 1 false (by decide) (by simp [reifStart])
    simp [Spec.objSum, Spec.linear, blockItem₀, reifObj, Objective.iter, Spec.LitTrue, Spec.solverAsg, h0, h1]
  reform := fun _ h => by cases h
  plain := fun _ => ⟨rfl, fun _ => rfl⟩
  buffered := fun _ => rfl
  output := by
    intro _ _ olit defs h
    cases h
    refine ⟨fun ρ hw => ?_, 1, _, rfl, rfl, fun ρ => ?_⟩
    · have h2 : ρ (.solver 2) = true := hw 2 true (by decide) (by simp [reifStart])
      simp [toAxm, Axm.val, h2]
    · obtain ⟨c, h1, h2⟩ := reifStart_contract.onlyIfDef 1 _ _ 1 rfl rfl
      cases h1
      have := h2 ρ
      simpa [blockItem₀, reifObj, Objective.lowerBound] using this
  single := fun h => by cases h

theorem blockStart_cut₁ : Spec.CutContract reifStart.proof.db (Spec.WitnessAgrees blockBase reifStart.valueMap)
    blockItem₁.enc.view blockItem₁.obj blockItem₁.cost blockItem₁.encSum where
  cost := by
    intro ρ hw
    have h1 : ρ (.solver 1) = false := hw 1 false (by decide) (by simp [reifStart])
    simp [Spec.objSum, Spec.linear, blockItem₁, Objective.iter, Spec.LitTrue, Spec.solverAsg, h1]
  reform := fun _ h => by cases h
  plain := fun _ => ⟨rfl, fun _ => rfl⟩
  buffered := fun _ => rfl
  output := fun _ _ _ _ h => by cases h
  single := by
    intro _ _ ls l h h'
    cases h
    cases h'
    refine ⟨fun ρ hw => ?_, fun ρ _ h => ?_⟩
    · have h1 : ρ (.solver 1) = false := hw 1 false (by decide) (by simp [reifStart])
      simp [toAxm, Axm.val, h1]
    · have h1 : ρ (.solver 1) = false := by
        cases h1 : ρ (.solver 1)
        · rfl
        · simp [toAxm, Axm.val, h1] at h
      simp [Spec.objSum, Spec.linear, blockItem₁, Objective.iter, Spec.LitTrue, Spec.solverAsg, h1]

theorem blockStart_ok : Spec.BlockStart blockItems blockWitness 1 true (reifStart, 4) where
  idx := by
    intro j it h
    match j, h with
    | 0, h => cases h; rfl
    | 1, h => cases h; rfl
    | j + 2, h => simp [blockItems] at h
  state := blockStart_state
  keys := fun _ h => by cases h
  extend := by
    intro it hi l hl
    simp only [blockItems, List.mem_cons, List.not_mem_nil, or_false] at hi
    rcases hi with rfl | rfl
    · simp only [blockItem₀, List.mem_cons, List.not_mem_nil, or_false] at hl
      rcases hl with rfl | rfl <;> decide
    · cases hl
  allowed := by
    show Spec.BlockAllowed blockObjs blockBase 1 true blockItems (reifStart, 4)
    unfold blockItems Spec.BlockAllowed
    rw [if_neg (by decide)]
    refine ⟨blockStart_extend, blockStart_cut₀, by decide, fun as h => ?_⟩
    cases h
    have ha : Spec.ReifAssumps blockItem₀.enc.view blockItem₀.obj.obj blockItem₀.cost ⟨4, false⟩ reifStart
        [⟨2, true⟩, ⟨3, true⟩] :=
      ⟨fun _ => ⟨⟨⟨_, rfl⟩, ⟨_, rfl⟩, trivial⟩, fun a ha => by cases ha; exact ⟨by decide, fun _ h => by cases h⟩⟩,
        fun h => by cases h⟩
    have hK : Spec.ReifContract reifStart.proof.db blockItem₀.enc.view blockItem₀.obj.obj blockItem₀.cost
        (Spec.objSum reifObj) 0 2 := by
      obtain ⟨k1, k2, k3, k4, k5, k6⟩ := reifStart_contract
      exact ⟨k1, k2, k3, k4, k5, k6⟩
    refine ⟨fun a h => (by cases h), fun _ => ⟨by decide, by decide, ⟨_, _, _, hK⟩, ha, blockStart_new, fun id ps hc => ?_⟩⟩
    have G := reification_step hc blockStart_state (by rfl) blockStart_new hK ha
    unfold Spec.BlockAllowed
    rw [if_neg (by decide)]
    refine ⟨⟨Spec.Writes.refl _ _, Spec.Keeps.refl _, G.state, rfl, rfl, [], [], by simp [blockItem₁], rfl,
      fun _ h => by cases h⟩, blockStart_cut₁.keep G.keeps G.agrees, by decide, fun as h => ?_⟩
    cases h
    refine ⟨fun a h => ?_, fun h => absurd rfl h⟩
    cases h
    refine ⟨⟨fun _ p hp => ?_, fun _ ls h => ?_, fun _ _ _ h => by cases h⟩, trivial⟩
    · cases List.mem_singleton.1 hp; rfl
    · cases h; rfl

theorem blockItems_unbuffered : ∀ it ∈ blockItems, Spec.Unbuffered it := by
  intro it hi
  simp only [blockItems, List.mem_cons, List.not_mem_nil, or_false] at hi
  rcases hi with rfl | rfl <;> intro _ _ h <;> cases h

/-- The clause has the new literal for the two assumptions and the literal of the other objective. -/
example : (permanentBlock true (blockItems.map BlockItem.enc) (blockItems.map BlockItem.obj) (blockItems.map BlockItem.cost)
    blockWitness 1 (reifStart, 4)).map (fun r => (r.1, r.2.2.1, r.2.2.2.2)) = some ([⟨4, false⟩, ⟨1, false⟩], 11, 5) := by
  decide +kernel

/-- With enumeration: the clause has a literal that switches it off. -/
example : (temporaryBlock true (blockItems.map BlockItem.enc) (blockItems.map BlockItem.obj) (blockItems.map BlockItem.cost)
    (reifStart, 4)).map (fun r => (r.1, r.2.1, r.2.2.2.1.proof.db.get r.2.1)) =
      some (⟨5, true⟩, 8, some (clauseCon [⟨4, false⟩, ⟨1, false⟩, ⟨5, false⟩])) := by
  decide +kernel

/-! ## A single assumption while literals are missing -/

/-- An objective whose literal with weight 5 is not in the encoding yet. -/
def missItem : BlockItem where
  enc := ⟨⟨false, 2, 0, fun _ => none, fun v => v + 1, fun _ => some [⟨2, true⟩], fun _ => []⟩, false, fun _ st => st⟩
  obj := ⟨.weighted 0 [(⟨0, false⟩, 1), (⟨1, false⟩, 1), (⟨2, false⟩, 5)] 0 0, none⟩
  cost := 5
  encSum := Spec.objSum (.weighted 0 [(⟨0, false⟩, 1), (⟨1, false⟩, 1), (⟨2, false⟩, 5)] 0 0)

def missStart : PStuff :=
  { proof := { db := [], steps := [], nInput := 0, nProofVars := 0 }, valueMap := [], bounds := [], added := [] }

def missWitness : Assignment := [.ff, .ff, .tt]

theorem missStart_extend : Spec.ExtendOk [missItem.obj.obj] (cutBase [missItem.enc.view] missWitness) missStart missStart where
  writes := Spec.Writes.refl _ _
  keeps := Spec.Keeps.refl _
  state := ⟨fun _ _ _ _ _ h => (by cases h), fun _ h => (by cases h), List.nodup_nil, fun _ h => (by cases h),
    fun _ _ h => (by cases h), fun _ _ _ _ h => (by cases h)⟩
  values := rfl
  bounds := rfl
  certified := ⟨[], [], rfl, rfl, fun _ h => by cases h⟩

theorem missStart_ok : Spec.BlockStart [missItem] missWitness 2 true (missStart, 3) where
  idx := by
    intro j it h
    match j, h with
    | 0, h => cases h; rfl
    | j + 1, h => simp at h
  state := missStart_extend.state
  keys := fun _ h => by cases h
  extend := by
    intro it hi l hl
    cases List.mem_singleton.1 hi
    cases hl
  allowed := by
    unfold Spec.BlockAllowed
    rw [if_neg (by decide)]
    refine ⟨missStart_extend, ⟨fun ρ hw => ?_, fun r h => (by cases h), fun _ => ⟨rfl, fun _ => rfl⟩, fun _ => rfl,
      fun h => (by cases h), fun h => (by cases h)⟩, by decide, fun as h => ?_⟩
    · have h0 : ρ (.solver 0) = false := hw 0 false (by decide) (fun _ h => by cases h)
      have h1 : ρ (.solver 1) = false := hw 1 false (by decide) (fun _ h => by cases h)
      have h2 : ρ (.solver 2) = true := hw 2 true (by decide) (fun _ h => by cases h)
      simp [Spec.objSum, Spec.linear, missItem, Objective.iter, Spec.LitTrue, Spec.solverAsg, h0, h1, h2]
    · cases h
      refine ⟨fun a ha => ?_, fun h => absurd rfl h⟩
      cases ha
      exact ⟨⟨fun h => absurd h (by decide), fun h => absurd h (by decide), fun h => (by cases h)⟩, trivial⟩

/-- The literal that switches it off is new. -/
example : ∀ r, dominatedBlock true (blockItems.map BlockItem.enc) (blockItems.map BlockItem.obj) (blockItems.map BlockItem.cost)
    (reifStart, 4) = some r → Spec.FreshVar (blockItems.map fun it => it.obj.obj) r.2.2.1 r.2.2.2 := by
  intro r h
  have hr : (dominatedBlock true (blockItems.map BlockItem.enc) (blockItems.map BlockItem.obj) (blockItems.map BlockItem.cost)
      (reifStart, 4)).all (fun r => decide (r.2.2.2 = 5) && r.2.2.1.proof.db.all (fun c => c.all fun c =>
        c.lits.all fun p => decide (p.2.var ≠ .solver 5)) && r.2.2.1.valueMap.all fun p => decide (p.1.var ≠ .solver 5) &&
          (match p.2 with | .identical l => decide (l.var ≠ 5) | _ => true)) = true := by decide +kernel
  rw [h] at hr
  simp only [Option.all_some, Bool.and_eq_true, decide_eq_true_eq, List.all_eq_true] at hr
  obtain ⟨⟨h5, hd⟩, hv⟩ := hr
  rw [h5]
  refine ⟨fun c hc hm => ?_, fun o ho p hp => ?_, fun p hp => (hv p hp).1, fun this that hm => by simpa using (hv _ hm).2⟩
  · obtain ⟨p, hp, he⟩ := hm
    have := hd _ (mem_live.1 hc)
    simp only [Option.all_some, List.all_eq_true, decide_eq_true_eq] at this
    exact this p hp he
  · have : o ∈ blockObjs := ho
    simp only [blockObjs, List.mem_cons, List.not_mem_nil, or_false] at this
    rcases this with rfl | rfl
    · simp only [reifObj, Objective.iter, List.mem_cons, List.not_mem_nil, or_false] at hp
      rcases hp with rfl | rfl <;> decide
    · cases List.mem_singleton.1 hp; decide

/-- A literal and its negation as objectives: any solution is Pareto-optimal. A candidate was blocked temporarily with
variable 1, and the clause is then made permanent. The solution that is left makes this impossible. -/
def oppEnc (neg : Bool) : BlockEnc :=
  ⟨⟨true, 1, 0, fun _ => none, fun v => v + 1, fun _ => some [⟨0, !neg⟩], fun _ => []⟩, false, fun _ st => st⟩

def oppObjs : List PObj := [⟨.weighted 0 [(⟨0, false⟩, 1)] 0 0, none⟩, ⟨.weighted 0 [(⟨0, true⟩, 1)] 1 0, none⟩]

def oppEncs : List BlockEnc := [oppEnc false, oppEnc true]

/-- The temporary block, and the state when it is made permanent. -/
def oppRun : Option (Nat × PStuff) := do
  let (blockLit, cut, ids, st) ← temporaryBlock true oppEncs oppObjs [1, 0] (missStart, 1)
  makePermanent true (oppEncs.map BlockEnc.view) oppObjs [1, 0] [.tt] 0 blockLit cut ids st.1

theorem oppRun_rejected : ∃ blockLit cut ids st id ps',
    temporaryBlock true oppEncs oppObjs [1, 0] (missStart, 1) = some (blockLit, cut, ids, st) ∧
    makePermanent true (oppEncs.map BlockEnc.view) oppObjs [1, 0] [.tt] 0 blockLit cut ids st.1 = some (id, ps') ∧
    ∀ ord, ¬ Spec.Writes ord st.1 ps' := by
  have hr : (oppRun.map fun r => (r.1, (List.range r.2.proof.db.length).all fun i => decide (i + 1 = r.1) ||
      (r.2.proof.db.get (i + 1)).all fun c => decide (c.Holds fun v => v == .solver 1))) = some (5, true) := by
    decide +kernel
  cases h1 : temporaryBlock true oppEncs oppObjs [1, 0] (missStart, 1) with
  | none => unfold oppRun at hr; rw [h1] at hr; cases hr
  | some r =>
    obtain ⟨blockLit, cut, ids, st⟩ := r
    unfold oppRun at hr
    rw [h1] at hr
    simp only [Option.bind_eq_bind, Option.bind_some] at hr
    obtain ⟨⟨id, ps'⟩, h2, h3⟩ := Option.map_eq_some_iff.1 hr
    refine ⟨blockLit, cut, ids, st, id, ps', rfl, h2, fun ord => ?_⟩
    simp only [Prod.mk.injEq, List.all_eq_true, List.mem_range, Bool.or_eq_true, decide_eq_true_eq] at h3
    refine permanent_block_rejected h2 (ρ := fun v => v == .solver 1) (fun i c hi hc => ?_) ?_ ord
    · have hlt := ConDb.get_lt hc
      have hpos : 0 < i := by
        rcases Nat.eq_zero_or_pos i with rfl | h
        · cases hc
        · exact h
      obtain ⟨k, rfl⟩ := Nat.exists_eq_add_one.2 hpos
      rcases h3.2 k (by omega) with h4 | h4
      · exact absurd h4 hi
      · rw [hc] at h4
        simpa using h4
    · have : (temporaryBlock true oppEncs oppObjs [1, 0] (missStart, 1)).map Prod.fst = some ⟨1, true⟩ := by decide +kernel
      rw [h1] at this
      cases this
      rfl

/-- C52, violated: with a single assumption while literals of the objective are missing in the encoding, the blocking clause
does not follow from the cut by unit propagation. The cut is about the variable for the bound on the objective, the clause
about the literal, and the hints do not have the definition of the variable. -/
theorem block_clause_buffered_counterexample : ∃ (items : List BlockItem) (witness : Assignment) (maxEncVar : Nat)
    (st st' : PStuff × Nat) (cls : Clause) (cutId id : Nat), Spec.BlockStart items witness maxEncVar true st ∧
      permanentBlock true (items.map BlockItem.enc) (items.map BlockItem.obj) (items.map BlockItem.cost) witness maxEncVar st =
        some (cls, cutId, id, st') ∧ ∀ ord, ¬ Spec.Writes ord st.1 st'.1 := by
  have hrun : ∃ r, certifyPminCut true [missItem.enc.view] [missItem.obj] [5] missWitness 2 missStart = some r ∧
      r.2.proof.db.get r.1 = some (.clause [⟨.proof 0, true⟩]) := by
    cases h : certifyPminCut true [missItem.enc.view] [missItem.obj] [5] missWitness 2 missStart with
    | none =>
      have : (certifyPminCut true [missItem.enc.view] [missItem.obj] [5] missWitness 2 missStart).isSome = true := by
        decide +kernel
      rw [h] at this; cases this
    | some r =>
      refine ⟨r, rfl, ?_⟩
      have : (certifyPminCut true [missItem.enc.view] [missItem.obj] [5] missWitness 2 missStart).map
          (fun r => r.2.proof.db.get r.1) = some (some (.clause [⟨.proof 0, true⟩])) := by decide +kernel
      rw [h] at this
      exact Option.some.inj this
  obtain ⟨⟨cutId, ps₂⟩, h1, h2⟩ := hrun
  let ps₃ : PStuff := (ps₂.push (.rup (clauseCon [⟨2, true⟩]) ([cutId].map CId.abs))).2.addCert [⟨2, true⟩]
    (ps₂.proof.db.length + 1)
  refine ⟨[missItem], missWitness, 2, (missStart, 3), (ps₃, 3), [⟨2, true⟩], cutId, ps₂.proof.db.length + 1, missStart_ok, ?_,
    fun ord hw => ?_⟩
  · unfold permanentBlock
    have hd : dominatedBlock true ([missItem].map BlockItem.enc) ([missItem].map BlockItem.obj) ([missItem].map BlockItem.cost)
        (missStart, 3) = some ([⟨2, true⟩], [], (missStart, 3)) := rfl
    rw [hd]
    simp only [Option.bind_eq_bind, Option.bind_some]
    have h1' : certifyPminCut true (([missItem].map BlockItem.enc).map BlockEnc.view) ([missItem].map BlockItem.obj)
        ([missItem].map BlockItem.cost) missWitness 2 missStart = some (cutId, ps₂) := h1
    rw [h1']
    rfl
  · have hs := (certifyPminCut_logs h1).last rfl hw
    obtain ⟨hs, g1, g2⟩ := hs
    have hh : hs = [.clause [⟨.proof 0, true⟩]] := by
      have : ([cutId].map CId.abs).mapM ps₂.proof.db.find = some hs := g1
      simp only [List.map_cons, List.map_nil, List.mapM_cons, List.mapM_nil, ConDb.find_abs, h2] at this
      exact (Option.some.inj this).symm
    subst hh
    have := Spec.Rup.sound g2 (ρ := fun v => match v with | .solver 2 => true | _ => false) (fun c hc => by
      cases List.mem_singleton.1 hc
      decide)
    revert this
    decide

end Scuttle
