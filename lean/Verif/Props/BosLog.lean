import Verif.Proof.BosLog
import Verif.Props.LinsuLog

/-!
# The proof of BiOptSat (C54)
-/

namespace Scuttle

/-- The P-minimal cut of a point: the increasing objective or the decreasing one is better. -/
theorem Spec.BosPoint.pminCut {enc₀ enc₁ : EncView} {o₀ o₁ : PObj} {incCost decCost incLb : Nat} {witness : Assignment}
    {maxEncVar : Nat} {incLbId lastCut lastDecLb : Option Nat} {sum₀ sum₁ : (AnyVar → Bool) → Nat} {x₀ y₀ : Axm AnyVar}
    {ps ps₁ : PStuff} {pminCut : Nat} {debug : Bool} {rest : List (Axm AnyVar)}
    (P : Spec.BosPoint enc₀ enc₁ o₀ o₁ incCost decCost incLb witness maxEncVar incLbId lastCut lastDecLb sum₀ sum₁ x₀ y₀ ps)
    (hrest : (decCost ≤ o₁.obj.lowerBound ∧ rest = []) ∨ ∃ x₁, Spec.BoundLit enc₁ o₁ decCost ps x₁ ∧ rest = [x₁.not])
    (h : certifyPminCut debug [enc₀, enc₁] [o₀, o₁] [incCost, decCost] witness maxEncVar ps = some (pminCut, ps₁)) :
    Spec.Writes (Spec.ParetoOrder [o₀.obj, o₁.obj]) ps ps₁ ∧ Spec.Keeps ps ps₁ ∧
    Spec.BoundsDefined [o₀.obj, o₁.obj] ps₁ ∧ Spec.ProofVarsFresh ps₁ ∧ ps₁.added = ps.added ∧ ps₁.bounds = ps.bounds ∧
    Spec.HasClause ps₁ pminCut (if incCost ≤ enc₀.offset then rest else x₀.not :: rest) := by
  obtain ⟨w1, w2, w3, w4, w5, cut, w6, -, -⟩ := pmin_cut_accepted P.cut h
  obtain ⟨ds, ps', ω, h1, h2, rfl, hs, hdb, hv, hb, ha, hn⟩ := certifyPminCut_run h
  simp only [cutData] at h1
  obtain ⟨⟨d₀, ps₂⟩, hd0, h1⟩ := Option.bind_eq_some_iff.1 h1
  obtain ⟨⟨ds', ps₃⟩, h1', h1⟩ := Option.bind_eq_some_iff.1 h1
  obtain ⟨⟨d₁, ps₄⟩, hd1, h1'⟩ := Option.bind_eq_some_iff.1 h1'
  cases h1'
  cases h1
  have hfirst : ps₂ = ps ∧ (if incCost ≤ enc₀.offset then rest else x₀.not :: rest) = d₀.1.toList ++ rest := by
    by_cases hle : incCost ≤ enc₀.offset
    · obtain ⟨q1, q2⟩ := cutDatum_low (by rw [← P.offset]; exact hle) hd0
      rw [if_pos hle, q1]
      exact ⟨q2, rfl⟩
    · obtain ⟨q1, q2⟩ := cutDatum_lit (P.inc (by omega)).1 hd0
      rw [if_neg hle, q1]
      exact ⟨q2, rfl⟩
  obtain ⟨rfl, hf2⟩ := hfirst
  have hsecond : ps₄ = ps₂ ∧ rest = d₁.1.toList := by
    rcases hrest with ⟨hle, rfl⟩ | ⟨x₁, hB, rfl⟩
    · obtain ⟨q1, q2⟩ := cutDatum_low hle hd1
      rw [q1]
      exact ⟨q2, rfl⟩
    · obtain ⟨q1, q2⟩ := cutDatum_lit hB hd1
      rw [q1]
      exact ⟨q2, rfl⟩
  obtain ⟨rfl, hs2⟩ := hsecond
  refine ⟨w1, w2, w3, w4, w5, hb, .clause cut, w6, ?_⟩
  have hcut : cut = d₀.1.toList ++ rest := by
    have := ConDb.get_new (ps₄.proof.db ++ [some (mapDomCon ω ([d₀, d₁].filterMap Prod.fst))] ++
      [some (LbCon.clause (ω.map Axm.not))]) (some (LbCon.clause ([d₀, d₁].filterMap Prod.fst)))
    simp only [List.length_append, List.length_cons, List.length_nil] at this
    rw [hdb, ConDb.get_delete (by simp), this] at w6
    have he : [d₀, d₁].filterMap Prod.fst = cut := by
      have hinj : ∀ a b : List (Axm AnyVar), LbCon.clause a = LbCon.clause b → a = b := by
        intro a b hab
        have := congrArg (fun c => c.lits.map Prod.snd) hab
        simpa [LbCon.clause, List.map_map, Function.comp_def] using this
      exact hinj _ _ (Option.some.inj w6)
    rw [← he, hs2]
    clear * -
    obtain ⟨a, b⟩ := d₀
    obtain ⟨c, d⟩ := d₁
    cases a <;> cases c <;> rfl
  rw [hf2, hcut]
  exact LbCon.Same.refl _

/-- C54: if the encoding of the increasing objective has no buffer, all lines that BiOptSat writes for a point are correct for the
Pareto order, and no constraint is lost. The bound on the decreasing objective is given to the solver, each literal with a constraint for
it. What is kept for the next point gives the lower bound on the increasing objective, unless the constraints
already contradict each other. Partial: with a buffer of the increasing objective the proof is rejected
(`bos_buffer_counterexample`); that the lower bounds mention the literals of the cut is a premise, which the code
does not ensure (`bos_bound_counterexample`). -/
theorem bos_cut_accepted_partial {enc₀ enc₁ : EncView} {o₀ o₁ : PObj} {incCost decCost incLb : Nat} {witness : Assignment}
    {maxEncVar : Nat} {assumps : List Lit} {incLbId decLbId lastCut lastDecLb : Option Nat}
    {sum₀ sum₁ : (AnyVar → Bool) → Nat} {x₀ x₁ : Axm AnyVar} {ps ps' : PStuff} {debug : Bool} {cutId : Nat} {decLb : Option Nat}
    (hbuf : enc₀.bufferEmpty = true)
    (S : Spec.BosStart enc₀ enc₁ o₀ o₁ incCost decCost incLb witness maxEncVar assumps incLbId decLbId lastCut lastDecLb
      sum₀ sum₁ x₀ x₀ x₁ ps)
    (h : bosLog debug enc₀ enc₁ o₀ o₁ incCost decCost incLb witness maxEncVar assumps incLbId decLbId lastCut lastDecLb ps =
      some (cutId, decLb, ps')) :
    Spec.Writes (Spec.ParetoOrder [o₀.obj, o₁.obj]) ps ps' ∧ Spec.Keeps ps ps' ∧
    Spec.BoundsDefined [o₀.obj, o₁.obj] ps' ∧ Spec.ProofVarsFresh ps' ∧
    (∃ as, enc₁.enforceUb (decCost - 1) = some as ∧ Spec.CertifiedSame ps ps' (as.map fun a => [a])) ∧
    Spec.HasClause ps' cutId [x₁.not] ∧
    ((∃ olit defs, enc₀.details (enc₀.nextHigher incCost) = some (olit, defs) ∧
        ∀ n, Spec.IncBound ps' n n none (some cutId) decLb (toAxm olit)) ∨
      ∀ ρ, ∃ c ∈ Spec.live ps'.proof.db, ¬ c.Holds ρ) := by
  obtain ⟨P, hdec, hdecLb, houts, K₀, K₁, hub, hne⟩ := S
  unfold bosLog at h
  obtain ⟨⟨pminCut, ps₁⟩, h1, h⟩ := Option.bind_eq_some_iff.1 h
  obtain ⟨⟨decLb', ps₂⟩, h2, h⟩ := Option.bind_eq_some_iff.1 h
  obtain ⟨⟨cutId', ps₃⟩, h3, h⟩ := Option.bind_eq_some_iff.1 h
  obtain ⟨ps₄, h4, h⟩ := Option.bind_eq_some_iff.1 h
  simp only [Option.some.injEq, Prod.mk.injEq] at h
  obtain ⟨rfl, rfl, rfl⟩ := h
  obtain ⟨w1, w2, w3, w4, w5, w6, w7⟩ := P.pminCut (Or.inr ⟨x₁, hdec, rfl⟩) h1
  obtain ⟨i, rfl, hlb⟩ := hdecLb
  obtain ⟨c, hc1⟩ : ∃ c, ps.proof.db.get i = some c := by
    rcases hlb with ⟨c, hc, -⟩ | ⟨c, hc, -⟩ <;> exact ⟨c, hc⟩
  obtain ⟨sum, offset, total, K₁⟩ := K₁
  have hup : incCost ≤ enc₀.nextHigher incCost ∨ assumps.length < 2 := by
    by_cases h2 : 2 ≤ assumps.length
    · obtain ⟨_, _, _, K⟩ := K₀ h2
      exact Or.inl (K.higher incCost).le
    · omega
  have hsh : Lines (Spec.ParetoOrder [o₀.obj, o₁.obj]) ps₁ ps₂ ∧ ps₂.added = ps₁.added ∧
      (c.Same (.clause (assumps.map (fun l => toAxm l.not) ++ [x₁])) →
      assumps ≠ [] → ∃ j olit defs, decLb' = some j ∧ enc₀.details (enc₀.nextHigher incCost) = some (olit, defs) ∧
        Spec.HasClause ps₂ j [toAxm olit, x₁]) :=
    bosShorten_spec hbuf hup (fun h2 => by
      obtain ⟨a, b, d, K⟩ := K₀ h2
      exact ⟨a, b, d, K.mono w2⟩) rfl (w2 _ _ hc1) (houts.1 hbuf) hne h2
  obtain ⟨s1, s2, s3⟩ := hsh
  obtain ⟨c1, c2, c3⟩ := bosCutId_spec (ord := Spec.ParetoOrder [o₀.obj, o₁.obj]) (fun hlt => (P.inc hlt).2.mono (w2.trans s1.keeps))
    (w7.mono s1.keeps) h3
  have hkeep := (w2.trans s1.keeps).trans c1.keeps
  obtain ⟨as, ha, h4⟩ := Option.bind_eq_some_iff.1 h4
  obtain ⟨hub1, hub2⟩ := hub as ha
  have hlast : Lines (Spec.ParetoOrder [o₀.obj, o₁.obj]) ps₃ ps₄ ∧ Spec.CertifiedSame ps₃ ps₄ (as.map fun a => [a]) := by
    cases hb : enc₁.bufferEmpty with
    | true =>
      rw [if_pos hb] at h4
      obtain ⟨⟨first, sems⟩, hd, h4⟩ := Option.bind_eq_some_iff.1 h4
      obtain ⟨olit, defs, g1, rfl, -, -⟩ := hdec.output hb
      rw [hd] at g1
      cases g1
      match as, hub1 hb with
      | [], _ => cases h4
      | a :: as, ⟨⟨defs, hda⟩, ho⟩ =>
        rw [hd] at hda
        cases hda
        simp only at h4
        split at h4
        · cases h4
        · obtain ⟨q1, q2⟩ := bosAddOutputs_spec (ord := Spec.ParetoOrder [o₀.obj, o₁.obj]) (ps := ps₃.addCert [a] cutId') hd
            (K₁.mono hkeep) (le_refl _) ho c3 h4
          have q3 := Lines.addedFrom q1
          refine ⟨q3, ?_⟩
          obtain ⟨new, r1, r2, r3⟩ := q2
          refine ⟨([a], cutId') :: new, by rw [r1]; simp [PStuff.addCert], by simp [r2], fun y hy => ?_⟩
          rcases List.mem_cons.1 hy with rfl | hy
          · have := c3.mono q3.keeps
            rwa [show (toAxm a.not).not = toAxm a by simp [toAxm, Axm.not, Lit.not]] at this
          · exact r3 y hy
    | false =>
      rw [hb] at h4
      simp only [Bool.false_eq_true, if_false] at h4
      obtain ⟨-, -, d₁, d₂, hm⟩ := hdec.remembered hb
      have hbounds : ps₃.bounds = ps.bounds := by rw [c1.bounds, s1.bounds, w6]
      have hg : getObjBound decCost o₁.obj ps₃ = ((x₁, d₁, d₂), ps₃) := by unfold getObjBound; rw [hbounds, hm]
      rw [hg] at h4
      have hB := c1.boundsDefined (s1.boundsDefined w3)
      have hidx : o₁.obj.idx = 1 := P.cut.idx 1 ⟨enc₁, o₁, decCost, sum₁⟩ rfl
      rw [hidx] at hm
      obtain ⟨obj, k, b1, b2, rfl, b4, b5, b6, b7⟩ := hB _ _ _ _ _ (by rw [hbounds]; exact mapGet_mem hm)
      cases b1
      exact bosAddBuffered_spec hb (K₁.mono hkeep) (le_refl _) b4 b5 (hub2 hb) c3 h4
  obtain ⟨l1, l2⟩ := hlast
  have hkeep' := hkeep.trans l1.keeps
  have hcut := c3.mono l1.keeps
  refine ⟨((w1.trans s1.writes).trans c1.writes).trans l1.writes, hkeep',
    l1.boundsDefined (c1.boundsDefined (s1.boundsDefined w3)), l1.fresh (c1.fresh (s1.fresh w4)), ⟨as, ha, ?_⟩, hcut, ?_⟩
  · obtain ⟨new, r1, r2, r3⟩ := l2
    exact ⟨new, by rw [r1, c2, s2, w5], r2, r3⟩
  · have hunit : Spec.HasClause ps i [x₁] → ∀ ρ, ∃ c ∈ Spec.live ps₄.proof.db, ¬ c.Holds ρ := by
      intro hu ρ
      obtain ⟨e, he1, he2⟩ := hu.mono hkeep'
      obtain ⟨f, hf1, hf2⟩ := hcut
      by_cases hx : x₁.val ρ = 0
      · refine ⟨e, mem_live_of_get he1, ?_⟩
        rw [LbCon.holds_iff, he2, clause_unit_slack, hx]
        omega
      · refine ⟨f, mem_live_of_get hf1, ?_⟩
        rw [LbCon.holds_iff, hf2, clause_unit_slack, Axm.val_not]
        rcases val_cases x₁ ρ with h | h <;> omega
    rcases hlb with hlb | hlb
    · by_cases hnil : assumps = []
      · subst hnil
        exact Or.inr (hunit hlb)
      · obtain ⟨e, he1, he2⟩ := hlb
        rw [hc1] at he1
        cases he1
        obtain ⟨j, olit, defs, j1, j2, j3⟩ := s3 he2 hnil
        refine Or.inl ⟨olit, defs, j2, fun n => ?_⟩
        unfold Spec.IncBound
        rw [if_pos rfl]
        exact ⟨cutId', j, x₁, rfl, j1, hcut, j3.mono (c1.keeps.trans l1.keeps)⟩
    · exact Or.inr (hunit hlb)

/-- C54: if the decreasing objective is at its lower bound, the proof ends with a contradiction. -/
theorem bos_final_contradiction {enc₀ enc₁ : EncView} {o₀ o₁ : PObj} {incCost decCost incLb : Nat} {witness : Assignment}
    {maxEncVar : Nat} {incLbId lastCut lastDecLb : Option Nat} {sum₀ sum₁ : (AnyVar → Bool) → Nat} {x₀ : Axm AnyVar}
    {ps ps' : PStuff} {debug : Bool} {cutId : Nat} (hlow : decCost ≤ o₁.obj.lowerBound)
    (P : Spec.BosPoint enc₀ enc₁ o₀ o₁ incCost decCost incLb witness maxEncVar incLbId lastCut lastDecLb sum₀ sum₁ x₀ x₀ ps)
    (h : bosFinal debug enc₀ enc₁ o₀ o₁ incCost decCost incLb witness maxEncVar incLbId lastCut lastDecLb ps = some (cutId, ps')) :
    Spec.Writes (Spec.ParetoOrder [o₀.obj, o₁.obj]) ps ps' ∧ Spec.Keeps ps ps' ∧
    ∃ c, ps'.proof.db.get cutId = some c ∧ Spec.Contradiction c := by
  unfold bosFinal at h
  obtain ⟨⟨pminCut, ps₁⟩, h1, h⟩ := Option.bind_eq_some_iff.1 h
  obtain ⟨w1, w2, w3, w4, w5, w6, w7⟩ := P.pminCut (Or.inl ⟨hlow, rfl⟩) h1
  obtain ⟨c1, c2, c, c3, c4⟩ := bosCutId_spec (ord := Spec.ParetoOrder [o₀.obj, o₁.obj]) (fun hlt => (P.inc hlt).2.mono w2) w7 h
  refine ⟨w1.trans c1.writes, w2.trans c1.keeps, c, c3, fun ρ hh => ?_⟩
  rw [LbCon.holds_iff, c4, LbCon.slack_clause] at hh
  simp at hh

/-! ## Examples -/

/-- Two literals of weight one. -/
def pairObj (a b idx : Nat) : Objective := .weighted 0 [(⟨a, false⟩, 1), (⟨b, false⟩, 1)] idx 0

/-- An encoding of two literals with the outputs `o` and `p`, whose definitions have the identifiers from `n + 1` on. -/
def pairEnc (o p n : Nat) : EncView :=
  ⟨true, 2, 0, fun v => if v = 1 then some (⟨o, false⟩, ⟨some (n + 2), some (n + 1)⟩)
    else if v = 2 then some (⟨p, false⟩, ⟨none, some (n + 3)⟩) else none, fun v => v + 1,
    fun v => if v = 0 then some [⟨o, true⟩, ⟨p, true⟩] else none, fun _ => []⟩

/-- The definitions of the outputs. -/
def pairDefs (a b o p : Nat) : List (Option (LbCon AnyVar)) :=
  [some ⟨[(1, ⟨.solver a, false⟩), (1, ⟨.solver b, false⟩), (1, ⟨.solver o, true⟩)], 1⟩,
    some ⟨[(1, ⟨.solver a, true⟩), (1, ⟨.solver b, true⟩), (2, ⟨.solver o, false⟩)], 2⟩,
    some ⟨[(1, ⟨.solver a, false⟩), (1, ⟨.solver b, false⟩), (2, ⟨.solver p, true⟩)], 2⟩]

/-- The definitions are in the proof. -/
def HasPair (db : ConDb AnyVar) (a b o p n : Nat) : Prop :=
  ∀ (i : Nat) c, (pairDefs a b o p)[i]? = some c → db.get (n + 1 + i) = c

theorem pairEnc_details {o p n val : Nat} {olit : Lit} {defs : SemDefs} (h : (pairEnc o p n).details val = some (olit, defs)) :
    (val = 1 ∧ olit = ⟨o, false⟩ ∧ defs = ⟨some (n + 2), some (n + 1)⟩) ∨
      (val = 2 ∧ olit = ⟨p, false⟩ ∧ defs = ⟨none, some (n + 3)⟩) := by
  unfold pairEnc at h
  simp only at h
  split at h
  · cases h; exact Or.inl ⟨‹_›, rfl, rfl⟩
  · split at h
    · cases h; exact Or.inr ⟨‹_›, rfl, rfl⟩
    · cases h

theorem pair_contract {db : ConDb AnyVar} {a b o p n idx value : Nat} (hne : o ≠ p) (hv : value = 1 ∨ value = 2)
    (H : HasPair db a b o p n) :
    Spec.ReifContract db (pairEnc o p n) (pairObj a b idx) value (Spec.objSum (pairObj a b idx)) 0 2 where
  range := by omega
  higher := fun v => Nat.lt_succ_self v
  ifDef := by
    intro val olit defs d h h'
    rcases pairEnc_details h with ⟨rfl, rfl, rfl⟩ | ⟨rfl, rfl, rfl⟩
    · cases h'
      refine ⟨_, H 1 _ rfl, fun ρ => ?_⟩
      rw [LbCon.slack_def]
      simp only [List.map_cons, List.map_nil, List.sum_cons, List.sum_nil, Spec.objSum, Spec.linear, Objective.iter, pairObj,
          Spec.LitTrue, Spec.solverAsg, toAxm, Axm.val]
      rcases Bool.eq_false_or_eq_true (ρ (.solver a)) with h0 | h0 <;>
        rcases Bool.eq_false_or_eq_true (ρ (.solver b)) with h1 | h1 <;>
          rcases Bool.eq_false_or_eq_true (ρ (.solver o)) with h2 | h2 <;> simp [h0, h1, h2]
    · cases h'
  onlyIfDef := by
    intro val olit defs d h h'
    rcases pairEnc_details h with ⟨rfl, rfl, rfl⟩ | ⟨rfl, rfl, rfl⟩ <;> cases h'
    · refine ⟨_, H 0 _ rfl, fun ρ => ?_⟩
      rw [LbCon.slack_def]
      simp only [List.map_cons, List.map_nil, List.sum_cons, List.sum_nil, Spec.objSum, Spec.linear, Objective.iter, pairObj,
          Spec.LitTrue, Spec.solverAsg, toAxm, Axm.val]
      rcases Bool.eq_false_or_eq_true (ρ (.solver a)) with h0 | h0 <;>
        rcases Bool.eq_false_or_eq_true (ρ (.solver b)) with h1 | h1 <;>
          rcases Bool.eq_false_or_eq_true (ρ (.solver o)) with h2 | h2 <;> simp [h0, h1, h2]
    · refine ⟨_, H 2 _ rfl, fun ρ => ?_⟩
      rw [LbCon.slack_def]
      simp only [List.map_cons, List.map_nil, List.sum_cons, List.sum_nil, Spec.objSum, Spec.linear, Objective.iter, pairObj,
          Spec.LitTrue, Spec.solverAsg, toAxm, Axm.val]
      rcases Bool.eq_false_or_eq_true (ρ (.solver a)) with h0 | h0 <;>
        rcases Bool.eq_false_or_eq_true (ρ (.solver b)) with h1 | h1 <;>
          rcases Bool.eq_false_or_eq_true (ρ (.solver p)) with h2 | h2 <;> simp [h0, h1, h2]
  distinct := by
    intro val val' olit olit' defs defs' hlt h h'
    rcases pairEnc_details h with ⟨rfl, rfl, rfl⟩ | ⟨rfl, rfl, rfl⟩ <;>
      rcases pairEnc_details h' with ⟨rfl, rfl, rfl⟩ | ⟨rfl, rfl, rfl⟩ <;> simp at hlt ⊢
    exact hne
  part := fun h => by cases h

theorem pairObj_sum {a b idx : Nat} {ρ : AnyVar → Bool} :
    Spec.objSum (pairObj a b idx) ρ = (if ρ (.solver a) then 1 else 0) + if ρ (.solver b) then 1 else 0 := by
  simp only [Spec.objSum, Spec.linear, Objective.iter, pairObj, Spec.LitTrue, Spec.solverAsg]
  rcases Bool.eq_false_or_eq_true (ρ (.solver a)) with h0 | h0 <;>
    rcases Bool.eq_false_or_eq_true (ρ (.solver b)) with h1 | h1 <;> simp [h0, h1]

/-- A solution with the first literal, or with none. -/
theorem pair_cut {db : ConDb AnyVar} {W : (AnyVar → Bool) → Prop} {a b o p n idx : Nat} {t : Bool}
    (H : HasPair db a b o p n) (hW : ∀ ρ, W ρ → ρ (.solver a) = t ∧ ρ (.solver b) = false ∧ ρ (.solver o) = t) :
    Spec.CutContract db W (pairEnc o p n) ⟨pairObj a b idx, none⟩ t.toNat (Spec.objSum (pairObj a b idx)) where
  cost := by
    intro ρ hw
    obtain ⟨h1, h2, -⟩ := hW ρ hw
    rw [pairObj_sum, h1, h2]
    cases t <;> rfl
  reform := fun _ h => by cases h
  plain := fun _ => ⟨rfl, fun _ => rfl⟩
  buffered := fun _ => rfl
  output := by
    intro _ hlt olit defs h
    cases t with
    | false => exact absurd hlt (Nat.not_lt_zero _)
    | true =>
      cases h
      refine ⟨fun ρ hw => ?_, n + 1, _, rfl, H 0 _ rfl, fun ρ => ?_⟩
      · simp [toAxm, Axm.val, (hW ρ hw).2.2]
      · rw [LbCon.slack_def, pairObj_sum]
        simp only [List.map_cons, List.map_nil, List.sum_cons, List.sum_nil, toAxm, Axm.val, pairObj, Objective.lowerBound]
        rcases Bool.eq_false_or_eq_true (ρ (.solver a)) with h0 | h0 <;>
          rcases Bool.eq_false_or_eq_true (ρ (.solver b)) with h1 | h1 <;>
            rcases Bool.eq_false_or_eq_true (ρ (.solver o)) with h2 | h2 <;> simp [h0, h1, h2]
  single := fun h => by cases h

/-- A proof with these constraints. -/
def bosStart (db : ConDb AnyVar) : PStuff :=
  { proof := { db := db, steps := [], nInput := 0, nProofVars := 0 }, valueMap := [], bounds := [], added := [] }

/-- The values of an assignment. -/
def asgVal (base : Assignment) : AnyVar → Bool
  | .solver v => decide (base[v]? = some (TV.ofBool true))
  | .proof _ => false

/-- All constraints are over variables of the solver with a value, and hold. -/
def solvedBy (base : Assignment) (db : ConDb AnyVar) : Bool :=
  db.all fun c => c.all fun c => decide (c.Holds (asgVal base)) && c.lits.all fun p =>
    match p.2.var with
    | .solver v => decide (base[v]? = some (TV.ofBool true)) || decide (base[v]? = some (TV.ofBool false))
    | .proof _ => false

theorem bosStart_state {objs : List Objective} {base : Assignment} {db : ConDb AnyVar} (h : solvedBy base db = true) :
    Spec.LogState objs base (bosStart db) := by
  have hall : ∀ c ∈ Spec.live db, c.Holds (asgVal base) ∧ ∀ p ∈ c.lits, ∃ v b, p.2.var = .solver v ∧ base[v]? = some (TV.ofBool b) := by
    intro c hc
    rw [mem_live] at hc
    have := List.all_eq_true.1 h _ hc
    simp only [Option.all_some, Bool.and_eq_true, decide_eq_true_eq, List.all_eq_true] at this
    refine ⟨this.1, fun p hp => ?_⟩
    have h2 := this.2 p hp
    split at h2
    · rename_i v hv
      simp only [Bool.or_eq_true, decide_eq_true_eq] at h2
      rcases h2 with h2 | h2
      · exact ⟨v, true, hv, h2⟩
      · exact ⟨v, false, hv, h2⟩
    · cases h2
  refine ⟨fun _ _ _ _ _ h => (by cases h), fun c hc k hm => ?_, List.nodup_nil, fun _ h => (by cases h),
    fun _ _ h => (by cases h), fun ρ hw _ c hc => ?_⟩
  · obtain ⟨p, hp, he⟩ := hm
    obtain ⟨v, b, h1, -⟩ := (hall c hc).2 p hp
    rw [h1] at he; cases he
  · obtain ⟨h1, h2⟩ := hall c hc
    have hs : c.lits.map (fun p => p.1 * p.2.val ρ) = c.lits.map fun p => p.1 * p.2.val (asgVal base) := by
      refine List.map_congr_left fun p hp => ?_
      obtain ⟨v, b, h3, h4⟩ := h2 p hp
      have h5 : ρ (.solver v) = b := hw v b h4 (fun q hq => by cases hq)
      have h6 : asgVal base (.solver v) = b := by
        show decide (base[v]? = some (TV.ofBool true)) = b
        rw [h4]
        cases b <;> decide
      unfold Axm.val
      rw [h3, h5, h6]
    rw [LbCon.holds_iff, LbCon.slack_def] at h1 ⊢
    rw [hs]
    exact h1

/-- Two objectives and a lower bound: the first objective is not zero or the second one is at least one. -/
def bosDb : ConDb AnyVar := pairDefs 0 1 4 5 ++ pairDefs 2 3 6 7 ++ [some (clauseCon [⟨4, false⟩, ⟨5, false⟩, ⟨6, false⟩])]

theorem pair_of_check {db : ConDb AnyVar} {a b o p n : Nat} (h : (List.range 3).map (fun i => db.get (n + 1 + i)) = pairDefs a b o p) :
    HasPair db a b o p n := by
  intro i c hc
  rw [← h, List.getElem?_map] at hc
  obtain ⟨j, hj, rfl⟩ := Option.map_eq_some_iff.1 hc
  obtain ⟨hlt, rfl⟩ := List.getElem?_eq_some_iff.1 hj
  simp

/-- A point where the first objective is zero and the second one is one. -/
def bosWitness : Assignment := [.ff, .ff, .tt, .ff, .ff, .ff, .tt, .ff]

theorem pair_idx {enc₀ enc₁ : EncView} {o₀ o₁ : PObj} {c₀ c₁ : Nat} {s₀ s₁ : (AnyVar → Bool) → Nat} (h₀ : o₀.obj.idx = 0)
    (h₁ : o₁.obj.idx = 1) : ∀ (j : Nat) it, [(⟨enc₀, o₀, c₀, s₀⟩ : Spec.CutItem), ⟨enc₁, o₁, c₁, s₁⟩][j]? = some it →
      it.objective.idx = j
  | 0, _, h => by cases h; exact h₀
  | 1, _, h => by cases h; exact h₁
  | j + 2, _, h => by simp at h

theorem bosStart_ok : Spec.BosStart (pairEnc 4 5 0) (pairEnc 6 7 3) ⟨pairObj 0 1 0, none⟩ ⟨pairObj 2 3 1, none⟩ 0 1 0 bosWitness 3
    [⟨4, true⟩, ⟨5, true⟩] none (some 7) none none (Spec.objSum (pairObj 0 1 0)) (Spec.objSum (pairObj 2 3 1))
    ⟨.solver 4, false⟩ ⟨.solver 4, false⟩ ⟨.solver 6, false⟩ (bosStart bosDb) where
  cut :=
    { idx := pair_idx rfl rfl
      state := bosStart_state (by decide +kernel)
      contract := by
        intro it hi
        simp only [List.mem_cons, List.not_mem_nil, or_false] at hi
        rcases hi with rfl | rfl
        · exact pair_cut (t := false) (pair_of_check (by decide +kernel)) fun ρ hw =>
            ⟨hw 0 false (by decide) (fun _ h => by cases h), hw 1 false (by decide) (fun _ h => by cases h),
              hw 4 false (by decide) (fun _ h => by cases h)⟩
        · exact pair_cut (t := true) (pair_of_check (by decide +kernel)) fun ρ hw =>
            ⟨hw 2 true (by decide) (fun _ h => by cases h), hw 3 false (by decide) (fun _ h => by cases h),
              hw 6 true (by decide) (fun _ h => by cases h)⟩
      keys := fun _ h => by cases h
      extend := by
        intro it hi l hl
        simp only [List.mem_cons, List.not_mem_nil, or_false] at hi
        rcases hi with rfl | rfl <;> cases hl }
  offset := rfl
  inc := fun h => absurd h (by decide)
  dec := ⟨by decide, fun _ => ⟨_, _, rfl, rfl, fun h => absurd h (by decide), fun h => absurd h (by decide)⟩, fun h => by cases h⟩
  decLb := ⟨7, rfl, Or.inl ⟨_, rfl, LbCon.Same.refl _⟩⟩
  outs := ⟨fun _ => ⟨⟨_, rfl⟩, ⟨_, rfl⟩, trivial⟩, fun h => by cases h⟩
  outputs₀ := fun _ => ⟨_, _, _, pair_contract (by decide) (Or.inl rfl) (pair_of_check (by decide +kernel))⟩
  outputs₁ := ⟨_, _, _, pair_contract (by decide) (Or.inl rfl) (pair_of_check (by decide +kernel))⟩
  ub := by
    intro as h
    cases h
    exact ⟨fun _ => ⟨⟨_, rfl⟩, ⟨_, rfl⟩, trivial⟩, fun h => by cases h⟩
  distinct := by
    intro olit defs h
    cases h
    decide

/-- The bound on the second objective becomes two clauses. -/
example : (bosLog true (pairEnc 4 5 0) (pairEnc 6 7 3) ⟨pairObj 0 1 0, none⟩ ⟨pairObj 2 3 1, none⟩ 0 1 0 bosWitness 3
    [⟨4, true⟩, ⟨5, true⟩] none (some 7) none none (bosStart bosDb)).map (fun r => (r.1, r.2.1, r.2.2.added)) =
      some (10, some 12, [([⟨6, true⟩], 10), ([⟨7, true⟩], 14)]) := by decide +kernel

/-- The last point: the second objective is zero. Before it, the second objective was bounded, and the bound held unless the first
objective is at least one. -/
def bosLastDb : ConDb AnyVar :=
  pairDefs 0 1 4 5 ++ pairDefs 2 3 6 7 ++ [some (clauseCon [⟨6, true⟩]), some (clauseCon [⟨4, false⟩, ⟨6, false⟩])]

def bosLastWitness : Assignment := [.tt, .ff, .ff, .ff, .tt, .ff, .ff, .ff]

theorem bosLast_ok : Spec.BosPoint (pairEnc 4 5 0) (pairEnc 6 7 3) ⟨pairObj 0 1 0, none⟩ ⟨pairObj 2 3 1, none⟩ 1 0 1 bosLastWitness 3
    none (some 7) (some 8) (Spec.objSum (pairObj 0 1 0)) (Spec.objSum (pairObj 2 3 1))
    ⟨.solver 4, false⟩ ⟨.solver 4, false⟩ (bosStart bosLastDb) where
  cut :=
    { idx := pair_idx rfl rfl
      state := bosStart_state (by decide +kernel)
      contract := by
        intro it hi
        simp only [List.mem_cons, List.not_mem_nil, or_false] at hi
        rcases hi with rfl | rfl
        · exact pair_cut (t := true) (pair_of_check (by decide +kernel)) fun ρ hw =>
            ⟨hw 0 true (by decide) (fun _ h => by cases h), hw 1 false (by decide) (fun _ h => by cases h),
              hw 4 true (by decide) (fun _ h => by cases h)⟩
        · exact pair_cut (t := false) (pair_of_check (by decide +kernel)) fun ρ hw =>
            ⟨hw 2 false (by decide) (fun _ h => by cases h), hw 3 false (by decide) (fun _ h => by cases h),
              hw 6 false (by decide) (fun _ h => by cases h)⟩
      keys := fun _ h => by cases h
      extend := by
        intro it hi l hl
        simp only [List.mem_cons, List.not_mem_nil, or_false] at hi
        rcases hi with rfl | rfl <;> cases hl }
  offset := rfl
  inc := fun _ => ⟨⟨by decide, fun _ => ⟨_, _, rfl, rfl, fun h => absurd h (by decide), fun h => absurd h (by decide)⟩,
    fun h => by cases h⟩, by
      unfold Spec.IncBound
      rw [if_pos rfl]
      exact ⟨7, 8, ⟨.solver 6, false⟩, rfl, rfl, ⟨_, rfl, LbCon.Same.refl _⟩, ⟨_, rfl, LbCon.Same.refl _⟩⟩⟩

example : ((bosFinal true (pairEnc 4 5 0) (pairEnc 6 7 3) ⟨pairObj 0 1 0, none⟩ ⟨pairObj 2 3 1, none⟩ 1 0 1 bosLastWitness 3
    none (some 7) (some 8) (bosStart bosLastDb)).map Prod.fst) = some 13 := by decide +kernel

/-- The first objective also has a literal of weight five, which its encoding does not have yet. -/
def lateObj : Objective := .weighted 0 [(⟨0, false⟩, 5), (⟨1, false⟩, 1), (⟨2, false⟩, 1)] 0 0

def lateDb : ConDb AnyVar :=
  (gapStart 5 6).proof.db.take 2 ++ pairDefs 3 4 7 8 ++ [some (clauseCon [⟨0, false⟩, ⟨5, false⟩, ⟨6, false⟩, ⟨7, false⟩])]

def lateWitness : Assignment := [.ff, .ff, .ff, .tt, .ff, .ff, .ff, .tt, .ff]

theorem lateStart_ok : Spec.BosStart (gapEnc 5 6) (pairEnc 7 8 2) ⟨lateObj, none⟩ ⟨pairObj 3 4 1, none⟩ 0 1 0 lateWitness 4
    [⟨0, true⟩, ⟨5, true⟩, ⟨6, true⟩] none (some 6) none none (Spec.objSum lateObj) (Spec.objSum (pairObj 3 4 1))
    ⟨.solver 5, false⟩ ⟨.solver 5, false⟩ ⟨.solver 7, false⟩ (bosStart lateDb) where
  cut :=
    { idx := pair_idx rfl rfl
      state := bosStart_state (by decide +kernel)
      contract := by
        intro it hi
        simp only [List.mem_cons, List.not_mem_nil, or_false] at hi
        rcases hi with rfl | rfl
        · refine ⟨fun ρ hw => ?_, fun _ h => (by cases h), fun _ => ⟨rfl, fun _ => rfl⟩, fun _ => rfl, fun h => (by cases h),
            fun h => (by cases h)⟩
          have h0 : ρ (.solver 0) = false := hw 0 false (by decide) (fun _ h => by cases h)
          have h1 : ρ (.solver 1) = false := hw 1 false (by decide) (fun _ h => by cases h)
          have h2 : ρ (.solver 2) = false := hw 2 false (by decide) (fun _ h => by cases h)
          simp [Spec.objSum, Spec.linear, lateObj, Objective.iter, Spec.LitTrue, Spec.solverAsg, h0, h1, h2]
        · exact pair_cut (t := true) (pair_of_check (by decide +kernel)) fun ρ hw =>
            ⟨hw 3 true (by decide) (fun _ h => by cases h), hw 4 false (by decide) (fun _ h => by cases h),
              hw 7 true (by decide) (fun _ h => by cases h)⟩
      keys := fun _ h => by cases h
      extend := by
        intro it hi l hl
        simp only [List.mem_cons, List.not_mem_nil, or_false] at hi
        rcases hi with rfl | rfl <;> cases hl }
  offset := rfl
  inc := fun h => absurd h (by decide)
  dec := ⟨by decide, fun _ => ⟨_, _, rfl, rfl, fun h => absurd h (by decide), fun h => absurd h (by decide)⟩, fun h => by cases h⟩
  decLb := ⟨6, rfl, Or.inl ⟨_, rfl, LbCon.Same.refl _⟩⟩
  outs := ⟨fun h => (by cases h), fun _ => ⟨_, _, rfl, Or.inl ⟨by decide, ⟨5, by decide, by decide⟩, _, _, rfl,
    Or.inr ⟨by decide, rfl, _, _, rfl, Or.inr ⟨by decide, rfl, trivial⟩⟩⟩⟩⟩
  outputs₀ := fun _ => by
    have K := gapStart_contract (o₁ := 5) (o₂ := 6) (by decide)
    refine ⟨gapSum, 0, 2, K.range, K.higher, fun val olit defs d h h' => ?_, fun val olit defs d h h' => ?_, K.distinct,
      fun _ => ⟨rfl, fun ρ => ?_⟩⟩
    · obtain ⟨c, h1, h2⟩ := K.ifDef val olit defs d h h'
      rcases gapEnc_details h with ⟨rfl, rfl, rfl⟩ | ⟨rfl, rfl, rfl⟩ <;> cases h'
    · obtain ⟨c, h1, h2⟩ := K.onlyIfDef val olit defs d h h'
      rcases gapEnc_details h with ⟨rfl, rfl, rfl⟩ | ⟨rfl, rfl, rfl⟩ <;> cases h' <;> exact ⟨c, h1, h2⟩
    · simp only [Spec.objSum, Spec.linear, Objective.iter, lateObj, Spec.LitTrue, Spec.solverAsg, gapSum]
      rcases Bool.eq_false_or_eq_true (ρ (.solver 1)) with h0 | h0 <;>
        rcases Bool.eq_false_or_eq_true (ρ (.solver 2)) with h1 | h1 <;> simp [h0, h1]
  outputs₁ := ⟨_, _, _, pair_contract (by decide) (Or.inl rfl) (pair_of_check (by decide +kernel))⟩
  ub := by
    intro as h
    cases h
    exact ⟨fun _ => ⟨⟨_, rfl⟩, ⟨_, rfl⟩, trivial⟩, fun h => by cases h⟩
  distinct := by
    intro olit defs h
    cases h
    decide

/-- C54, violated: while literals of the increasing objective are missing in its encoding, the proof is rejected. The clause for
such a literal has the variable for the bound on the decreasing objective, which has nothing to do with it. -/
theorem bos_buffer_counterexample : ∃ (enc₀ enc₁ : EncView) (o₀ o₁ : PObj) (incCost decCost incLb : Nat) (witness : Assignment)
    (maxEncVar : Nat) (assumps : List Lit) (incLbId decLbId lastCut lastDecLb : Option Nat)
    (sum₀ sum₁ : (AnyVar → Bool) → Nat) (x₀ x₁ : Axm AnyVar) (ps ps' : PStuff) (cutId : Nat) (decLb : Option Nat),
    Spec.BosStart enc₀ enc₁ o₀ o₁ incCost decCost incLb witness maxEncVar assumps incLbId decLbId lastCut lastDecLb
      sum₀ sum₁ x₀ x₀ x₁ ps ∧
    bosLog true enc₀ enc₁ o₀ o₁ incCost decCost incLb witness maxEncVar assumps incLbId decLbId lastCut lastDecLb ps =
      some (cutId, decLb, ps') ∧ ∀ ord, ¬ Spec.Writes ord ps ps' := by
  cases h : bosLog true (gapEnc 5 6) (pairEnc 7 8 2) ⟨lateObj, none⟩ ⟨pairObj 3 4 1, none⟩ 0 1 0 lateWitness 4
    [⟨0, true⟩, ⟨5, true⟩, ⟨6, true⟩] none (some 6) none none (bosStart lateDb) with
  | none =>
    have : (bosLog true (gapEnc 5 6) (pairEnc 7 8 2) ⟨lateObj, none⟩ ⟨pairObj 3 4 1, none⟩ 0 1 0 lateWitness 4
      [⟨0, true⟩, ⟨5, true⟩, ⟨6, true⟩] none (some 6) none none (bosStart lateDb)).isSome = true := by decide +kernel
    rw [h] at this; cases this
  | some r =>
    refine ⟨_, _, _, _, _, _, _, _, _, _, _, _, _, _, _, _, _, _, _, r.2.2, r.1, r.2.1, lateStart_ok, h, fun ord hw => ?_⟩
    obtain ⟨new, h1, h2, _⟩ := hw
    have h1 : r.2.2.proof.steps = new := h1
    have hrun : (bosLog true (gapEnc 5 6) (pairEnc 7 8 2) ⟨lateObj, none⟩ ⟨pairObj 3 4 1, none⟩ 0 1 0 lateWitness 4
        [⟨0, true⟩, ⟨5, true⟩, ⟨6, true⟩] none (some 6) none none (bosStart lateDb)).map (fun r =>
          (r.2.2.proof.steps[7]?, ((r.2.2.proof.steps.take 7).foldl (fun db st => st.apply db) (bosStart lateDb).proof.db).get 10)) =
        some (some (.rup (.clause [⟨.solver 0, false⟩, ⟨.proof 0, false⟩]) [.abs 10]),
          some (boundDef₁ (pairObj 3 4 1) 1 (.proof 0))) := by
      decide +kernel
    rw [h] at hrun
    simp only [Option.map_some, Option.some.injEq, Prod.mk.injEq, h1] at hrun
    obtain ⟨hs, g1, g2⟩ := h2.step hrun.1
    simp only [List.mapM_cons, List.mapM_nil, ConDb.find_abs, hrun.2] at g1
    cases g1
    have := Spec.Rup.sound g2 (ρ := fun _ => false) (fun c hc => by
      cases List.mem_singleton.1 hc
      decide +kernel)
    revert this
    decide +kernel

/-- The lower bound on the first objective was derived while its encoding had a buffer: it is about a variable of the proof. -/
def gapBosDb : ConDb AnyVar :=
  pairDefs 0 1 4 5 ++ pairDefs 2 3 6 7 ++ [some (clauseCon [⟨5, false⟩, ⟨6, false⟩]),
    some (boundDef₁ (pairObj 0 1 0) 1 (.proof 0)), some (boundDef₂ (pairObj 0 1 0) 1 (.proof 0)),
    some (.clause [⟨.proof 0, false⟩])]

def gapBosStart : PStuff :=
  { proof := { db := gapBosDb, steps := [], nInput := 0, nProofVars := 1 }
    valueMap := [(⟨.proof 0, false⟩, .objAtLeast 0 1)], bounds := [((0, 1), (⟨.proof 0, false⟩, 8, 9))], added := [] }

def gapBosWitness : Assignment := [.tt, .ff, .tt, .ff, .tt, .ff, .tt, .ff]

theorem gapBos_ok : Spec.BosStart (pairEnc 4 5 0) (pairEnc 6 7 3) ⟨pairObj 0 1 0, none⟩ ⟨pairObj 2 3 1, none⟩ 1 1 0 gapBosWitness 3
    [⟨5, true⟩] (some 10) (some 7) none none (Spec.objSum (pairObj 0 1 0)) (Spec.objSum (pairObj 2 3 1))
    ⟨.solver 4, false⟩ ⟨.proof 0, false⟩ ⟨.solver 6, false⟩ gapBosStart where
  cut :=
    { idx := pair_idx rfl rfl
      state :=
        { bounds := by
            intro idx value lit d₁ d₂ h
            cases List.mem_singleton.1 h
            exact ⟨_, 0, rfl, rfl, rfl, by decide, rfl, rfl, List.mem_singleton.2 rfl⟩
          fresh := by
            intro c hc k hm
            have : gapBosDb.all (fun c => c.all fun c => c.lits.all fun p =>
                match p.2.var with | .proof k => decide (k < 1) | .solver _ => true) = true := by decide +kernel
            have h1 := List.all_eq_true.1 this _ (mem_live.1 hc)
            obtain ⟨p, hp, he⟩ := hm
            have h2 := List.all_eq_true.1 h1 p hp
            rw [he] at h2
            exact of_decide_eq_true h2
          keys := by decide
          below := by
            intro p hp k hk
            cases List.mem_singleton.1 hp
            cases hk
            decide
          identical := fun _ _ h => by cases List.mem_singleton.1 h
          solves := by
            intro ρ hw hmean c hc
            have hv : ∀ v, (v : Nat) < 8 → ∀ b, gapBosWitness[v]? = some (TV.ofBool b) → ρ (.solver v) = b := fun v _ b h =>
              hw v b (by revert h; revert b; revert v; decide +kernel) (fun p hp => by cases List.mem_singleton.1 hp; simp)
            have h0 := hv 0 (by decide) true rfl
            have h1 := hv 1 (by decide) false rfl
            have h2 := hv 2 (by decide) true rfl
            have h3 := hv 3 (by decide) false rfl
            have h4 := hv 4 (by decide) true rfl
            have h5 := hv 5 (by decide) false rfl
            have h6 := hv 6 (by decide) true rfl
            have h7 := hv 7 (by decide) false rfl
            have hp : ρ (.proof 0) = true := by
              have := hmean.2 ⟨.proof 0, false⟩ 0 1 (List.mem_singleton.2 rfl) (pairObj 0 1 0) rfl
              rw [pairObj_sum, h0, h1] at this
              simpa [Axm.val] using this
            rw [mem_live] at hc
            simp only [gapBosStart, gapBosDb, pairDefs, List.cons_append, List.nil_append, List.mem_cons, Option.some.injEq,
              List.not_mem_nil, or_false] at hc
            rcases hc with rfl | rfl | rfl | rfl | rfl | rfl | rfl | rfl | rfl | rfl <;>
              simp [LbCon.Holds, LbCon.lhs, Axm.val, clauseCon, LbCon.clause, toAxm, boundDef₁, boundDef₂, pairObj, Objective.iter,
                Objective.total, Lit.not, h0, h1, h2, h3, h4, h5, h6, h7, hp] }
      contract := by
        intro it hi
        have hk : ∀ v, ∀ p ∈ gapBosStart.valueMap, p.1.var ≠ .solver v := fun v p hp => by
          cases List.mem_singleton.1 hp; simp
        simp only [List.mem_cons, List.not_mem_nil, or_false] at hi
        rcases hi with rfl | rfl
        · exact pair_cut (t := true) (pair_of_check (by decide +kernel)) fun ρ hw =>
            ⟨hw 0 true (by decide) (hk _), hw 1 false (by decide) (hk _), hw 4 true (by decide) (hk _)⟩
        · exact pair_cut (t := true) (pair_of_check (by decide +kernel)) fun ρ hw =>
            ⟨hw 2 true (by decide) (hk _), hw 3 false (by decide) (hk _), hw 6 true (by decide) (hk _)⟩
      keys := fun p hp v hv => by cases List.mem_singleton.1 hp; cases hv
      extend := by
        intro it hi l hl
        simp only [List.mem_cons, List.not_mem_nil, or_false] at hi
        rcases hi with rfl | rfl <;> cases hl }
  offset := rfl
  inc := fun _ => ⟨⟨by decide, fun _ => ⟨_, _, rfl, rfl, fun h => absurd h (by decide), fun h => absurd h (by decide)⟩,
    fun h => by cases h⟩, by
      unfold Spec.IncBound
      rw [if_neg (by decide)]
      exact ⟨10, rfl, _, rfl, LbCon.Same.refl _⟩⟩
  dec := ⟨by decide, fun _ => ⟨_, _, rfl, rfl, fun h => absurd h (by decide), fun h => absurd h (by decide)⟩, fun h => by cases h⟩
  decLb := ⟨7, rfl, Or.inl ⟨_, rfl, LbCon.Same.refl _⟩⟩
  outs := ⟨fun _ => ⟨⟨_, rfl⟩, trivial⟩, fun h => by cases h⟩
  outputs₀ := fun h => absurd h (by decide)
  outputs₁ := ⟨_, _, _, pair_contract (by decide) (Or.inl rfl) (pair_of_check (by decide +kernel))⟩
  ub := by
    intro as h
    cases h
    exact ⟨fun _ => ⟨⟨_, rfl⟩, ⟨_, rfl⟩, trivial⟩, fun h => by cases h⟩
  distinct := by
    intro olit defs h
    cases h
    decide

/-- C54, violated: if the lower bound on the increasing objective was derived while literals were missing in its encoding, and none are
missing when the cut is derived, then a clause is given to the solver with a constraint that it does not follow from. The
lower bound is about the remembered variable for the bound on the objective, the cut about the output. -/
theorem bos_bound_counterexample : ∃ (enc₀ enc₁ : EncView) (o₀ o₁ : PObj) (incCost decCost incLb : Nat) (witness : Assignment)
    (maxEncVar : Nat) (assumps : List Lit) (incLbId decLbId lastCut lastDecLb : Option Nat)
    (sum₀ sum₁ : (AnyVar → Bool) → Nat) (x₀ y₀ x₁ : Axm AnyVar) (ps ps' : PStuff) (cutId : Nat) (decLb : Option Nat),
    enc₀.bufferEmpty = true ∧ (∃ d₁ d₂, mapGet (o₀.obj.idx, incCost) ps.bounds = some (y₀, d₁, d₂)) ∧
    Spec.BosStart enc₀ enc₁ o₀ o₁ incCost decCost incLb witness maxEncVar assumps incLbId decLbId lastCut lastDecLb
      sum₀ sum₁ x₀ y₀ x₁ ps ∧
    bosLog true enc₀ enc₁ o₀ o₁ incCost decCost incLb witness maxEncVar assumps incLbId decLbId lastCut lastDecLb ps =
      some (cutId, decLb, ps') ∧
    ∃ x ∈ ps'.added, ∃ c, ps'.proof.db.get x.2 = some c ∧ ∃ ρ, c.Holds ρ ∧ ¬ (clauseCon x.1).Holds ρ := by
  cases h : bosLog true (pairEnc 4 5 0) (pairEnc 6 7 3) ⟨pairObj 0 1 0, none⟩ ⟨pairObj 2 3 1, none⟩ 1 1 0 gapBosWitness 3
    [⟨5, true⟩] (some 10) (some 7) none none gapBosStart with
  | none =>
    have : (bosLog true (pairEnc 4 5 0) (pairEnc 6 7 3) ⟨pairObj 0 1 0, none⟩ ⟨pairObj 2 3 1, none⟩ 1 1 0 gapBosWitness 3
      [⟨5, true⟩] (some 10) (some 7) none none gapBosStart).isSome = true := by decide +kernel
    rw [h] at this; cases this
  | some r =>
    refine ⟨_, _, _, _, _, _, _, _, _, _, _, _, _, _, _, _, _, _, _, _, r.2.2, r.1, r.2.1, rfl, ⟨8, 9, rfl⟩, gapBos_ok, h, ?_⟩
    have hrun : (bosLog true (pairEnc 4 5 0) (pairEnc 6 7 3) ⟨pairObj 0 1 0, none⟩ ⟨pairObj 2 3 1, none⟩ 1 1 0 gapBosWitness 3
        [⟨5, true⟩] (some 10) (some 7) none none gapBosStart).map (fun r => r.2.2.added.any fun x =>
          (r.2.2.proof.db.get x.2).any fun c => decide (c.Holds fun v => v == .solver 6 || v == .proof 0) &&
            !decide ((clauseCon x.1).Holds fun v => v == .solver 6 || v == .proof 0)) = some true := by decide +kernel
    rw [h] at hrun
    simp only [Option.map_some, Option.some.injEq, List.any_eq_true] at hrun
    obtain ⟨x, hx, hc⟩ := hrun
    obtain ⟨c, hc1, hc2⟩ := (Option.any_eq_true _ _).1 hc
    simp only [Bool.and_eq_true, decide_eq_true_eq, Bool.not_eq_true', decide_eq_false_iff_not] at hc2
    exact ⟨x, hx, c, hc1, _, hc2.1, hc2.2⟩

end Scuttle
