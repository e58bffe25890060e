import Verif.Proof.LinsuLog
import Verif.Props.ProofReif

/-!
Lower bounds that are written to the proof when the solver finds no solution below a cost.
-/
set_option linter.unusedSectionVars false

namespace Scuttle

/-- C53. Whenever `linsu_certify_lower_bound` returns, the lines it has written are accepted by a checker, no constraint is lost,
and the solver gets nothing. The constraint with the returned identifier is the clause that one of the base assumptions is false
or the bound on the objective holds (or just the bound, for a core of one literal). With an empty buffer the bound is the output
for the cost. With a buffer it is a remembered literal that is true exactly if the objective is at least the cost. In both
cases the constraints of the proof and the base assumptions give the lower bound. -/
theorem linsu_bound_accepted {objs : List Objective} {base : Assignment} {debug : Bool} {fuel : Nat} {bas bs os : List Lit}
    {cost : Nat} {obj : Objective} {enc : EncView} {coreId : Nat} {encSum : (AnyVar → Bool) → Nat} {offset total : Nat}
    {ps ps' : PStuff} {id : Nat}
    (S : Spec.LinsuStart objs base bas bs os cost obj enc coreId encSum offset total ps)
    (h : linsuCertify debug fuel bas cost (bs.map Lit.not ++ os) obj enc coreId ps = some (id, ps'))
    (hbuf : enc.bufferEmpty = false → Spec.BufferedCore enc obj cost os)
    (hunit : debug = true ∨ ∀ c, bs.map Lit.not ++ os = [c] → ∃ defs, enc.details cost = some (c, defs)) :
    Spec.Writes (Spec.ParetoOrder objs) ps ps' ∧ Spec.Keeps ps ps' ∧ Spec.LogState objs base ps' ∧ ps'.added = ps.added ∧
      ∃ con goal, ps'.proof.db.get id = some con ∧
        (con.Same (.clause (bas.map (fun l => toAxm l.not) ++ [goal])) ∨
          enc.bufferEmpty = true ∧ os.length = 1 ∧ con.Same (.clause [goal])) ∧
        (enc.bufferEmpty = true → ∃ olit defs, enc.details cost = some (olit, defs) ∧ goal = toAxm olit ∧
          (defs.onlyIfDef.isSome → ∀ ρ, (∀ c ∈ Spec.live ps'.proof.db, c.Holds ρ) →
            (∀ b ∈ bas, Spec.LitTrue (Spec.solverAsg ρ) b) → cost ≤ encSum ρ + offset)) ∧
        (enc.bufferEmpty = false → (∃ d₁ d₂, mapGet (obj.idx, cost) ps'.bounds = some (goal, d₁, d₂)) ∧
          (∀ ρ, (∀ c ∈ Spec.live ps'.proof.db, c.Holds ρ) → (goal.val ρ = 1 ↔ cost ≤ Spec.objSum obj ρ)) ∧
          ∀ ρ, (∀ c ∈ Spec.live ps'.proof.db, c.Holds ρ) → (∀ b ∈ bas, Spec.LitTrue (Spec.solverAsg ρ) b) →
            cost ≤ Spec.objSum obj ρ) := by
  obtain ⟨con₀, hcon₀, hsame₀⟩ := S.core
  have hforce : ∀ {c : LbCon AnyVar} {goal : Axm AnyVar} {ρ : AnyVar → Bool}, c.Holds ρ →
      (c.Same (.clause (bas.map (fun l => toAxm l.not) ++ [goal])) ∨ c.Same (.clause [goal])) →
      (∀ b ∈ bas, Spec.LitTrue (Spec.solverAsg ρ) b) → goal.val ρ = 1 := by
    intro c goal ρ hc hs hb
    have hg := val_cases goal ρ
    rcases hg with hg | hg
    · exfalso
      rcases hs with hs | hs
      · refine hs.not_holds (fun x hx => ?_) hc
        rcases List.mem_append.1 hx with hx | hx
        · obtain ⟨b, hb', rfl⟩ := List.mem_map.1 hx
          rw [toAxm_not_val, toAxm_val, if_pos (hb b hb')]
          rfl
        · cases List.mem_singleton.1 hx
          exact hg
      · refine hs.not_holds (fun x hx => ?_) hc
        cases List.mem_singleton.1 hx
        exact hg
    · exact hg
  have houtput : ∀ {ps₁ : PStuff} {c : LbCon AnyVar} {olit : Lit} {defs : SemDefs} {i : Nat}, Spec.Keeps ps ps₁ →
      enc.details cost = some (olit, defs) → ps₁.proof.db.get i = some c →
      (c.Same (.clause (bas.map (fun l => toAxm l.not) ++ [toAxm olit])) ∨ c.Same (.clause [toAxm olit])) →
      defs.onlyIfDef.isSome → ∀ ρ, (∀ c ∈ Spec.live ps₁.proof.db, c.Holds ρ) →
        (∀ b ∈ bas, Spec.LitTrue (Spec.solverAsg ρ) b) → cost ≤ encSum ρ + offset := by
    intro ps₁ c olit defs i hk hd hc hs hon ρ hρ hb
    have h1 := hforce (hρ _ (mem_live_of_get hc)) hs hb
    obtain ⟨d, hon⟩ := Option.isSome_iff_exists.1 hon
    obtain ⟨c₂, g3, g4⟩ := S.contract.onlyIfDef _ _ _ _ hd hon
    have h2 := hρ _ (mem_live_of_get (hk _ _ g3))
    rw [LbCon.holds_iff, g4, h1] at h2
    have := S.contract.range
    omega
  have hstart := coreStart_eq (pre := []) S.outputs S.nodup S.sub S.disjoint
  simp only [List.nil_append, List.length_nil, Nat.zero_add] at hstart
  have hdrop : (bs.map Lit.not ++ os).drop bs.length = os := by simp
  unfold linsuCertify at h
  rw [hstart] at h
  simp only [Option.bind_eq_bind, Option.bind_some] at h
  cases hb : enc.bufferEmpty with
  | true =>
    rw [if_pos hb] at h
    obtain ⟨⟨first, sems⟩, hd, h⟩ := Option.bind_eq_some_iff.1 h
    simp only at h
    split at h
    · rename_i hlen
      have hos : os.length = 1 := by
        have h1 := List.length_pos_of_ne_nil S.outputs
        simp only [List.length_append, List.length_map] at hlen
        omega
      obtain ⟨c, hc⟩ := List.length_eq_one_iff.1 hlen
      have hcf : c = first := by
        rcases hunit with rfl | hu
        · rw [hc] at h
          simp only [Bool.true_and, List.head?_cons] at h
          split at h
          · cases h
          · rename_i hne
            simpa using hne
        · obtain ⟨defs, hd'⟩ := hu c hc
          rw [hd] at hd'
          cases hd'
          rfl
      split at h
      · cases h
      · simp only [Option.some.injEq, Prod.mk.injEq] at h
        obtain ⟨rfl, rfl⟩ := h
        have hs : con₀.Same (.clause [toAxm first]) := by rw [hc, hcf] at hsame₀; exact hsame₀
        exact ⟨Spec.Writes.refl _ _, Spec.Keeps.refl _, S.state, rfl, con₀, toAxm first, hcon₀, Or.inr ⟨rfl, hos, hs⟩,
          fun _ => ⟨first, sems, hd, rfl, houtput (Spec.Keeps.refl _) hd hcon₀ (Or.inr hs)⟩, fun he => (by cases he)⟩
    · rename_i hlen
      obtain ⟨c, hc, h⟩ := Option.bind_eq_some_iff.1 h
      obtain ⟨⟨ids, ps₁⟩, himp, h⟩ := Option.bind_eq_some_iff.1 h
      simp only at h
      obtain ⟨e1, e2, e3⟩ := linsuImpls_spec (ord := Spec.ParetoOrder objs) hd S.state S.contract (le_refl _) himp
      have hcore : ∀ l ∈ bs.map Lit.not ++ os, l.not ∈ bas ∨ toAxm l = toAxm first ∨
          l ∈ (bs.map Lit.not ++ os).drop (if c = first then bs.length + 1 else bs.length) := by
        intro l hl
        rcases List.mem_append.1 hl with hl | hl
        · left
          obtain ⟨b, hb', rfl⟩ := List.mem_map.1 hl
          rw [Lit.not_not]
          exact S.sub.subset hb'
        · right
          obtain ⟨o, os', hos⟩ := List.exists_cons_of_ne_nil S.outputs
          have hco : c = o := by
            rw [hos] at hc
            have : (bs.map Lit.not ++ o :: os')[bs.length]? = some o := by simp
            rw [this] at hc
            cases hc
            rfl
          split
          · rename_i hcf
            rw [← List.drop_drop, hdrop, hos]
            rw [hos] at hl
            rcases List.mem_cons.1 hl with rfl | hl
            · left; rw [← hco, hcf]
            · right; simpa using hl
          · right; rw [hdrop]; exact hl
      have hclause : clauseCon (bas.map Lit.not ++ [first]) = .clause (bas.map (fun l => toAxm l.not) ++ [toAxm first]) := by
        unfold clauseCon
        rw [List.map_append, List.map_map]
        rfl
      obtain ⟨r1, r2, r3, r4⟩ := core_rewritten S.state e1 e3 hcon₀ hsame₀ hcore (fun k hk => by cases hk) hclause
        (hints := (ids ++ [coreId]).map CId.abs) rfl
      have hsame : LbCon.Same (clauseCon (bas.map Lit.not ++ [first]))
          (.clause (bas.map (fun l => toAxm l.not) ++ [toAxm first])) := fun ρ => by rw [hclause]
      split at h
      · simp only [Option.some.injEq, Prod.mk.injEq] at h
        obtain ⟨rfl, rfl⟩ := h
        split
        · exact ⟨r1.writes, r1.keeps, r1.state, e2, _, toAxm first, r3, Or.inl hsame,
            fun _ => ⟨first, sems, hd, rfl, houtput r1.keeps hd r3 (Or.inl hsame)⟩, fun he => (by cases he)⟩
        · exact ⟨r2.writes, r2.keeps, r2.state, e2, _, toAxm first, r4, Or.inl hsame,
            fun _ => ⟨first, sems, hd, rfl, houtput r2.keeps hd r4 (Or.inl hsame)⟩, fun he => (by cases he)⟩
      · rename_i hne
        exfalso
        simp only [Bool.or_eq_true, Bool.not_eq_true', not_or, Bool.not_eq_false, List.isEmpty_iff] at hne
        obtain ⟨rfl, rfl⟩ := hne
        have hl := e3.len
        cases List.sublist_nil.1 S.sub
        have h1 := List.length_pos_of_ne_nil S.outputs
        simp only [List.map_nil, List.nil_append, List.length_drop, List.length_nil] at hl hlen
        split at hl <;> omega
  | false =>
    rw [if_neg (by simp [hb])] at h
    obtain ⟨k, d₁, d₂, ps₀, he, g1, g2, g3, hg⟩ := getObjBound_logState (paretoOrder_solver objs) (value := cost) S.index S.state
    have hmem := getObjBound_remembered cost obj ps
    rw [he] at h hmem
    simp only at h
    rw [hdrop] at h
    obtain ⟨⟨ids, ps₁⟩, himp, h⟩ := Option.bind_eq_some_iff.1 h
    simp only [Option.some.injEq, Prod.mk.injEq] at h
    obtain ⟨rfl, rfl⟩ := h
    have hk : k < ps₀.proof.nProofVars := hg.state.below _ g3 k rfl
    obtain ⟨e1, e2, e3⟩ := linsuImplsBuffered_spec (ord := Spec.ParetoOrder objs) hb hg.state (S.contract.mono hg.keeps) (le_refl _)
      hk g1 (hbuf hb) himp
    have hcore : ∀ l ∈ bs.map Lit.not ++ os, l.not ∈ bas ∨ toAxm l = (⟨.proof k, false⟩ : Axm AnyVar) ∨ l ∈ os := by
      intro l hl
      rcases List.mem_append.1 hl with hl | hl
      · left
        obtain ⟨b, hb', rfl⟩ := List.mem_map.1 hl
        rw [Lit.not_not]
        exact S.sub.subset hb'
      · exact Or.inr (Or.inr hl)
    obtain ⟨r1, r2, r3, r4⟩ := core_rewritten hg.state e1 e3 (hg.keeps _ _ hcon₀) hsame₀ hcore
      (fun j hj => by cases hj; exact hk) (c := .clause (bas.map (fun l => toAxm l.not) ++ [⟨.proof k, false⟩])) rfl
      (hints := (ids ++ [coreId]).map CId.abs) rfl
    have hideal : ∀ ρ, (∀ c ∈ Spec.live ((ps₁.push (.rup (.clause (bas.map (fun l => toAxm l.not) ++ [⟨.proof k, false⟩]))
        ((ids ++ [coreId]).map CId.abs))).2.write (.del ids [])).proof.db, c.Holds ρ) →
        ((⟨.proof k, false⟩ : Axm AnyVar).val ρ = 1 ↔ cost ≤ Spec.objSum obj ρ) := by
      intro ρ hρ
      have := (boundDefs_iff obj cost (.proof k) ρ).1 ⟨hρ _ (mem_live_of_get (r2.keeps _ _ g1)),
        hρ _ (mem_live_of_get (r2.keeps _ _ g2))⟩
      rw [val_pos, ← this]
      simp
    refine ⟨hg.writes.trans r2.writes, hg.keeps.trans r2.keeps, r2.state, e2.trans hg.added, _, ⟨.proof k, false⟩, r4,
      Or.inl fun _ => rfl, fun hc => (by cases hc), fun _ => ⟨⟨d₁, d₂, ?_⟩, hideal, fun ρ hρ hbs => ?_⟩⟩
    · rw [r2.bounds]; exact hmem
    · exact (hideal ρ hρ).1 (hforce (hρ _ (mem_live_of_get r4)) (Or.inl fun _ => rfl) hbs)

/-- C53. With an empty buffer, the function returns if the core has outputs in the order of their values and these have their
definitions. -/
theorem linsu_bound_total {objs : List Objective} {base : Assignment} {debug : Bool} {fuel : Nat} {bas bs os outs : List Lit}
    {cost : Nat} {obj : Objective} {enc : EncView} {coreId : Nat} {encSum : (AnyVar → Bool) → Nat} {offset total : Nat}
    {ps : PStuff} (S : Spec.LinsuStart objs base bas bs os cost obj enc coreId encSum offset total ps)
    (hb : enc.bufferEmpty = true) (hc : Spec.OutputCore enc cost os outs) (hf : outs.length ≤ fuel) :
    ∃ id ps', linsuCertify debug fuel bas cost (bs.map Lit.not ++ os) obj enc coreId ps = some (id, ps') := by
  have hstart := coreStart_eq (pre := []) S.outputs S.nodup S.sub S.disjoint
  simp only [List.nil_append, List.length_nil, Nat.zero_add] at hstart
  have hdrop : (bs.map Lit.not ++ os).drop bs.length = os := by simp
  obtain ⟨o, os', hos⟩ := List.exists_cons_of_ne_nil S.outputs
  obtain ⟨first, sems, hd⟩ : ∃ first sems, enc.details cost = some (first, sems) := by
    have h1 := hc.outputs
    have h2 := hc.sub
    cases outs with
    | nil => rw [hos] at h2; cases h2
    | cons a as =>
      obtain ⟨⟨defs, hd⟩, _⟩ := h1
      exact ⟨_, _, hd⟩
  unfold linsuCertify
  rw [hstart]
  simp only [Option.bind_eq_bind, Option.bind_some]
  rw [if_pos hb, hd]
  simp only [Option.bind_some]
  split
  · rename_i hlen
    have hbs : bs = [] := by
      rw [hos] at hlen
      simp only [List.length_append, List.length_map, List.length_cons] at hlen
      exact List.length_eq_zero_iff.1 (by omega)
    have hos' : os' = [] := by
      rw [hos] at hlen
      simp only [List.length_append, List.length_map, List.length_cons] at hlen
      exact List.length_eq_zero_iff.1 (by omega)
    subst hbs hos'
    obtain ⟨defs, hd'⟩ := hc.unit o hos
    rw [hd] at hd'
    cases hd'
    rw [if_neg (by simp [hos])]
    exact ⟨_, _, rfl⟩
  · have hget : (bs.map Lit.not ++ os)[bs.length]? = some o := by rw [hos]; simp
    rw [hget]
    simp only [Option.bind_some]
    obtain ⟨ifDef, hif⟩ := Option.isSome_iff_exists.1 (hc.ifDef _ _ hd)
    have hsub : (((bs.map Lit.not ++ os).drop (if o = first then bs.length + 1 else bs.length)).map Lit.not).Sublist outs := by
      split
      · rw [← List.drop_drop, hdrop]
        exact ((List.drop_sublist _ _).map _).trans hc.sub
      · rw [hdrop]; exact hc.sub
    obtain ⟨⟨ids, ps₁⟩, h1⟩ := linsuImpls_total (ifDef := ifDef) (cost := cost) (ps := ps) hc.onlyIfDef hc.outputs hsub hf
    rw [hif, h1]
    simp only [Option.bind_some]
    split
    · exact ⟨_, _, rfl⟩
    · exact ⟨_, _, rfl⟩

/-! ## Examples -/

/-- The outputs of `reifEnc`, and a core with a base assumption. -/
def linsuStart : PStuff :=
  { reifStart with proof := { reifStart.proof with
      db := reifStart.proof.db ++ [some (clauseCon [⟨5, true⟩, ⟨2, false⟩, ⟨3, false⟩])] } }

def linsuWitness : Assignment := [.ff, .ff, .ff, .ff, .ff, .ff]

theorem linsuStart_state : Spec.LogState [reifObj] linsuWitness linsuStart where
  bounds := fun _ _ _ _ _ h => by cases h
  fresh := by
    intro c hc k hm
    rcases (live_append _ _).1 hc with hc | rfl
    · rcases reifStart_mentions hc hm with h | h | h | h <;> cases h
    · obtain ⟨l, _, he⟩ := clauseCon_mentions hm
      cases he
  keys := List.nodup_nil
  below := fun _ h => by cases h
  identical := fun _ _ h => by cases h
  solves := by
    intro ρ hw _ c hc
    have h0 : ρ (.solver 0) = false := hw 0 false (by decide) (fun p hp => by cases hp)
    have h1 : ρ (.solver 1) = false := hw 1 false (by decide) (fun p hp => by cases hp)
    have h2 : ρ (.solver 2) = false := hw 2 false (by decide) (fun p hp => by cases hp)
    have h3 : ρ (.solver 3) = false := hw 3 false (by decide) (fun p hp => by cases hp)
    have h5 : ρ (.solver 5) = false := hw 5 false (by decide) (fun p hp => by cases hp)
    rcases (live_append _ _).1 hc with hc | rfl
    · rcases reifStart_mem hc with rfl | rfl | rfl <;> simp [LbCon.Holds, LbCon.lhs, Axm.val, h0, h1, h2, h3]
    · simp [clauseCon, LbCon.clause, toAxm, LbCon.Holds, LbCon.lhs, Axm.val, h2, h3, h5]

theorem linsuStart_ok : Spec.LinsuStart [reifObj] linsuWitness [⟨5, false⟩] [⟨5, false⟩] [⟨2, false⟩, ⟨3, false⟩] 1 reifObj
    reifEnc 4 (Spec.objSum reifObj) 0 2 linsuStart where
  state := linsuStart_state
  index := rfl
  contract := reifStart_contract.mono (ps := reifStart) (ps' := linsuStart) fun i c h => ConDb.get_append _ h
  core := ⟨_, rfl, fun _ => rfl⟩
  nodup := by decide
  sub := List.Sublist.refl _
  outputs := by decide
  disjoint := by decide

/-- The clause with both outputs is rewritten to the first output. -/
example : (linsuCertify true 2 [⟨5, false⟩] 1 [⟨5, true⟩, ⟨2, false⟩, ⟨3, false⟩] reifObj reifEnc 4 linsuStart).map
    (fun r => (r.1, r.2.proof.db.get 5, r.2.proof.db.get 6)) = some (6, none, some (clauseCon [⟨5, true⟩, ⟨2, false⟩])) := by
  decide +kernel

theorem linsuStart_outputs : Spec.OutputCore reifEnc 1 [⟨2, false⟩, ⟨3, false⟩] [⟨2, true⟩, ⟨3, true⟩] where
  outputs := ⟨⟨_, rfl⟩, ⟨_, rfl⟩, trivial⟩
  sub := by decide
  ifDef := by
    intro olit defs h
    rcases reifEnc_details h with ⟨_, _, rfl⟩ | ⟨h, _⟩
    · rfl
    · cases h
  onlyIfDef := by
    intro val olit defs h
    rcases reifEnc_details h with ⟨_, _, rfl⟩ | ⟨_, _, rfl⟩ <;> rfl
  unit := by
    intro c h
    cases h

example : ∃ id ps', linsuCertify true 2 [⟨5, false⟩] 1 [⟨5, true⟩, ⟨2, false⟩, ⟨3, false⟩] reifObj reifEnc 4 linsuStart =
    some (id, ps') :=
  linsu_bound_total linsuStart_ok rfl linsuStart_outputs (by decide)

/-- Two literals that are counted and one that is missing, with the variables of outputs `o₁` and `o₂`. -/
def gapObj : Objective := .weighted 0 [(⟨0, false⟩, 1), (⟨1, false⟩, 1), (⟨2, false⟩, 1)] 0 0

def gapEnc (o₁ o₂ : Nat) : EncView :=
  ⟨false, 2, 0, fun v => if v = 1 then some (⟨o₁, false⟩, ⟨none, some 1⟩) else if v = 2 then some (⟨o₂, false⟩, ⟨none, some 2⟩)
    else none, fun v => v + 1, fun _ => none, fun _ => []⟩

/-- The definitions of the outputs, and a core of the literal that is missing and the second output. -/
def gapStart (o₁ o₂ : Nat) : PStuff :=
  { proof :=
      { db := [some ⟨[(1, ⟨.solver 1, false⟩), (1, ⟨.solver 2, false⟩), (1, ⟨.solver o₁, true⟩)], 1⟩,
          some ⟨[(1, ⟨.solver 1, false⟩), (1, ⟨.solver 2, false⟩), (2, ⟨.solver o₂, true⟩)], 2⟩,
          some (clauseCon [⟨0, false⟩, ⟨o₂, false⟩])]
        steps := [], nInput := 0, nProofVars := 0 }
    valueMap := [], bounds := [], added := [] }

def gapWitness : Assignment := [.tt, .ff, .ff, .ff, .ff]

theorem gapEnc_details {o₁ o₂ val : Nat} {olit : Lit} {defs : SemDefs} (h : (gapEnc o₁ o₂).details val = some (olit, defs)) :
    (val = 1 ∧ olit = ⟨o₁, false⟩ ∧ defs = ⟨none, some 1⟩) ∨ (val = 2 ∧ olit = ⟨o₂, false⟩ ∧ defs = ⟨none, some 2⟩) := by
  unfold gapEnc at h
  simp only at h
  split at h
  · cases h; exact Or.inl ⟨‹_›, rfl, rfl⟩
  · split at h
    · cases h; exact Or.inr ⟨‹_›, rfl, rfl⟩
    · cases h

def gapSum (ρ : AnyVar → Bool) : Nat := (if ρ (.solver 1) then 1 else 0) + if ρ (.solver 2) then 1 else 0

theorem gapStart_contract {o₁ o₂ : Nat} (hne : o₁ ≠ o₂) :
    Spec.ReifContract (gapStart o₁ o₂).proof.db (gapEnc o₁ o₂) gapObj 1 gapSum 0 2 where
  range := by decide
  higher := fun v => Nat.lt_succ_self v
  ifDef := by
    intro val olit defs d h h'
    rcases gapEnc_details h with ⟨rfl, rfl, rfl⟩ | ⟨rfl, rfl, rfl⟩ <;> cases h'
  onlyIfDef := by
    intro val olit defs d h h'
    rcases gapEnc_details h with ⟨rfl, rfl, rfl⟩ | ⟨rfl, rfl, rfl⟩ <;> cases h'
    · refine ⟨_, rfl, fun ρ => ?_⟩
      rw [LbCon.slack_def]
      simp only [List.map_cons, List.map_nil, List.sum_cons, List.sum_nil, toAxm, Axm.val, gapSum]
      rcases Bool.eq_false_or_eq_true (ρ (.solver 1)) with h0 | h0 <;>
        rcases Bool.eq_false_or_eq_true (ρ (.solver 2)) with h1 | h1 <;>
          rcases Bool.eq_false_or_eq_true (ρ (.solver o₁)) with h2 | h2 <;> simp [h0, h1, h2]
    · refine ⟨_, rfl, fun ρ => ?_⟩
      rw [LbCon.slack_def]
      simp only [List.map_cons, List.map_nil, List.sum_cons, List.sum_nil, toAxm, Axm.val, gapSum]
      rcases Bool.eq_false_or_eq_true (ρ (.solver 1)) with h0 | h0 <;>
        rcases Bool.eq_false_or_eq_true (ρ (.solver 2)) with h1 | h1 <;>
          rcases Bool.eq_false_or_eq_true (ρ (.solver o₂)) with h2 | h2 <;> simp [h0, h1, h2]
  distinct := by
    intro val val' olit olit' defs defs' hlt h h'
    rcases gapEnc_details h with ⟨rfl, rfl, rfl⟩ | ⟨rfl, rfl, rfl⟩ <;>
      rcases gapEnc_details h' with ⟨rfl, rfl, rfl⟩ | ⟨rfl, rfl, rfl⟩ <;> simp at hlt ⊢
    exact hne
  part := fun _ => ⟨rfl, fun ρ => by
    simp only [Spec.objSum, Spec.linear, Objective.iter, gapObj, Spec.LitTrue, Spec.solverAsg, gapSum]
    rcases Bool.eq_false_or_eq_true (ρ (.solver 1)) with h0 | h0 <;>
      rcases Bool.eq_false_or_eq_true (ρ (.solver 2)) with h1 | h1 <;> simp [h0, h1]⟩

theorem gapStart_ok {o₁ o₂ : Nat} (h : (o₁ = 3 ∧ o₂ = 4) ∨ (o₁ = 4 ∧ o₂ = 3)) :
    Spec.LinsuStart [gapObj] gapWitness [] [] [⟨0, false⟩, ⟨o₂, false⟩] 1 gapObj (gapEnc o₁ o₂) 3 gapSum 0 2 (gapStart o₁ o₂) where
  state :=
    { bounds := fun _ _ _ _ _ h => by cases h
      fresh := by
        intro c hc k hm
        rw [mem_live] at hc
        simp only [gapStart, List.mem_cons, Option.some.injEq, List.not_mem_nil, or_false] at hc
        rcases hc with rfl | rfl | rfl <;> obtain ⟨p, hp, he⟩ := hm <;>
          simp only [clauseCon, LbCon.clause, List.map_cons, List.map_nil, List.mem_cons, List.not_mem_nil, or_false] at hp
        · rcases hp with rfl | rfl | rfl <;> cases he
        · rcases hp with rfl | rfl | rfl <;> cases he
        · rcases hp with rfl | rfl <;> cases he
      keys := List.nodup_nil
      below := fun _ h => by cases h
      identical := fun _ _ h => by cases h
      solves := by
        intro ρ hw _ c hc
        have h0 : ρ (.solver 0) = true := hw 0 true (by decide) (fun p hp => by cases hp)
        have h1 : ρ (.solver 1) = false := hw 1 false (by decide) (fun p hp => by cases hp)
        have h2 : ρ (.solver 2) = false := hw 2 false (by decide) (fun p hp => by cases hp)
        have h3 : ρ (.solver 3) = false := hw 3 false (by decide) (fun p hp => by cases hp)
        have h4 : ρ (.solver 4) = false := hw 4 false (by decide) (fun p hp => by cases hp)
        rw [mem_live] at hc
        simp only [gapStart, List.mem_cons, Option.some.injEq, List.not_mem_nil, or_false] at hc
        rcases h with ⟨rfl, rfl⟩ | ⟨rfl, rfl⟩ <;> rcases hc with rfl | rfl | rfl <;>
          simp [clauseCon, LbCon.clause, toAxm, LbCon.Holds, LbCon.lhs, Axm.val, h0, h1, h2, h3, h4] }
  index := rfl
  contract := gapStart_contract (by omega)
  core := ⟨_, rfl, fun _ => rfl⟩
  nodup := List.nodup_nil
  sub := List.Sublist.refl _
  outputs := by simp
  disjoint := by simp

/-- Variables of outputs that increase with the values. -/
theorem gapStart_buffered : Spec.BufferedCore (gapEnc 3 4) gapObj 1 [⟨0, false⟩, ⟨4, false⟩] := by
  intro c hc val hval olit defs h
  simp only [List.mem_cons, List.not_mem_nil, or_false] at hc
  rcases gapEnc_details h with ⟨rfl, rfl, rfl⟩ | ⟨rfl, rfl, rfl⟩ <;> rcases hc with rfl | rfl
  · exact ⟨fun _ => ⟨1, le_refl _, by decide⟩, fun h => (by simp at h)⟩
  · exact ⟨fun h => (by simp at h), fun h => (by simp at h)⟩
  · exact ⟨fun _ => ⟨1, le_refl _, by decide⟩, fun h => (by simp at h)⟩
  · exact ⟨fun h => (by simp at h), fun _ => rfl⟩

example : (linsuCertify true 2 [] 1 [⟨0, false⟩, ⟨4, false⟩] gapObj (gapEnc 3 4) 3 (gapStart 3 4)).map
    (fun r => (r.1, r.2.proof.db.get r.1)) = some (9, some (.clause [⟨.proof 0, false⟩])) := by
  decide +kernel

/-- C53: why the variables of outputs have to increase with the values while the encoding has a buffer. All other hypotheses of
`linsu_bound_accepted` hold, the literals of the core are a literal of the objective and an output, but the output is taken for
a literal of the objective, and the clause for it does not follow from the hint. -/
theorem linsu_output_order_counterexample : ∃ (objs : List Objective) (base : Assignment) (os : List Lit) (cost : Nat)
    (obj : Objective) (enc : EncView) (coreId : Nat) (encSum : (AnyVar → Bool) → Nat) (offset total id : Nat) (ps ps' : PStuff),
    Spec.LinsuStart objs base [] [] os cost obj enc coreId encSum offset total ps ∧
    (∀ o ∈ os, (∃ w, cost ≤ w ∧ (o, w) ∈ obj.iter) ∨ ∃ val defs, cost ≤ val ∧ enc.details val = some (o, defs)) ∧
    linsuCertify true 2 [] cost os obj enc coreId ps = some (id, ps') ∧ ∀ ord, ¬ Spec.Writes ord ps ps' := by
  cases h : linsuCertify true 2 [] 1 [⟨0, false⟩, ⟨3, false⟩] gapObj (gapEnc 4 3) 3 (gapStart 4 3) with
  | none =>
    have : (linsuCertify true 2 [] 1 [⟨0, false⟩, ⟨3, false⟩] gapObj (gapEnc 4 3) 3 (gapStart 4 3)).isSome = true := by
      decide +kernel
    rw [h] at this; cases this
  | some r =>
    refine ⟨[gapObj], gapWitness, [⟨0, false⟩, ⟨3, false⟩], 1, gapObj, gapEnc 4 3, 3, gapSum, 0, 2, r.1, gapStart 4 3, r.2,
      gapStart_ok (Or.inr ⟨rfl, rfl⟩), ?_, h, fun ord hw => ?_⟩
    · intro o ho
      simp only [List.mem_cons, List.not_mem_nil, or_false] at ho
      rcases ho with rfl | rfl
      · exact Or.inl ⟨1, le_refl _, by decide⟩
      · exact Or.inr ⟨2, _, by decide, rfl⟩
    · obtain ⟨new, h1, h2, _⟩ := hw
      have h1 : r.2.proof.steps = new := h1
      have hrun : (linsuCertify true 2 [] 1 [⟨0, false⟩, ⟨3, false⟩] gapObj (gapEnc 4 3) 3 (gapStart 4 3)).map (fun r =>
          (r.2.proof.steps[3]?, ((r.2.proof.steps.take 3).foldl (fun db st => st.apply db) (gapStart 4 3).proof.db).get 4)) =
            some (some (.rup (.clause [⟨.solver 3, true⟩, ⟨.proof 0, false⟩]) [.abs 4]), some (boundDef₁ gapObj 1 (.proof 0))) := by
        decide +kernel
      rw [h] at hrun
      simp only [Option.map_some, Option.some.injEq, Prod.mk.injEq, h1] at hrun
      obtain ⟨hs, g1, g2⟩ := h2.step hrun.1
      simp only [List.mapM_cons, List.mapM_nil, ConDb.find_abs, hrun.2] at g1
      cases g1
      have := Spec.Rup.sound g2 (ρ := fun v => v == .solver 3) (fun c hc => by
        cases List.mem_singleton.1 hc
        decide +kernel)
      revert this
      decide +kernel

end Scuttle
