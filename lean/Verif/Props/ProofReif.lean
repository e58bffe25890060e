import Verif.Proof.ProofReif
import Verif.SpecBlock

/-!
The literal that stands for a set of assumptions in a proof: its definition and its clauses follow.
-/
set_option linter.unusedSectionVars false

namespace Scuttle

/-- C39. The combination of definitions of two outputs that `certify_assump_reification` and BiOptSat write, divided by the
difference of their values plus one or plus two, is the clause that the higher output implies the lower output. -/
theorem implication_derived {db : ConDb AnyVar} {d₁ d₂ : Nat} {c₁ c₂ : LbCon AnyVar} {sum : (AnyVar → Bool) → Nat}
    {total k k' : Nat} {o o' : Axm AnyVar} (g1 : db.get d₁ = some c₁) (g2 : db.get d₂ = some c₂)
    (h1 : Spec.IfDef c₁ sum total k o) (h2 : Spec.OnlyIfDef c₂ sum k' o') (hk : 0 < k) (hkt : k ≤ total) (hlt : k < k')
    (hv : o.var ≠ o'.var) {D : Nat} (hD : k' - k + 1 ≤ D) :
    ∃ c, (implOps d₁ d₂ D).eval db = some c ∧ LbCon.Same c (.clause [o, o'.not]) ∧
      ∀ ρ, c.Holds ρ ↔ (o'.val ρ = 1 → o.val ρ = 1) := by
  have hs := impl_same (D := D) h1 h2 (by omega) (by omega) (by omega) (by omega) hv
  refine ⟨((c₁.add c₂).div D).saturate, ?_, hs, fun ρ => ?_⟩
  · unfold implOps
    simp only [Ops.eval, ConDb.find_abs, g1, g2, Option.bind_eq_bind, Option.bind_some, Option.map_some]
    rw [if_neg (by omega)]
    rfl
  · rw [hs.holds, holds_pair, Axm.val_not]
    have := val_cases o' ρ
    omega

/-- C39. `certify_assump_reification` for a new variable writes lines that a checker accepts, keeps all constraints and the
state of the proof, and gives the solver the clauses that the literal implies each of the assumptions. The constraint whose
identifier it returns says that the literal is implied, by the first assumption or by the objective being below the value;
in the second case the literal for the objective is remembered. -/
theorem reification_accepted {objs : List Objective} {base : Assignment} {debug : Bool} {obj : Objective} {enc : EncView}
    {value : Nat} {reif : Lit} {assumps : List Lit} {ps ps' : PStuff} {id : Nat} {encSum : (AnyVar → Bool) → Nat}
    {offset total : Nat} (h : certifyAssumpReification debug obj enc value reif assumps ps = some (id, ps'))
    (hl : Spec.LogState objs base ps) (ho : objs[obj.idx]? = some obj) (hf : Spec.FreshVar objs ps reif.var)
    (hpos : reif.neg = false) (hK : Spec.ReifContract ps.proof.db enc obj value encSum offset total)
    (ha : Spec.ReifAssumps enc obj value reif ps assumps) :
    Spec.Writes (Spec.ParetoOrder objs) ps ps' ∧ Spec.Keeps ps ps' ∧ Spec.LogState objs base ps' ∧
      Spec.Certified ps ps' (assumps.map fun a => [reif.not, a]) ∧
      (enc.bufferEmpty = true → ∀ a ∈ assumps.head?, ps'.proof.db.get id = some (clauseCon [a.not, reif])) ∧
      (enc.bufferEmpty = false → ∃ ideal, ps'.proof.db.get id = some (.clause [toAxm reif, ideal]) ∧
        (∃ d₁ d₂, mapGet (obj.idx, value) ps'.bounds = some (ideal, d₁, d₂)) ∧
        ∀ ρ, (∀ c ∈ Spec.live ps'.proof.db, c.Holds ρ) → (ideal.val ρ = 1 ↔ value ≤ Spec.objSum obj ρ)) := by
  have hreif : toAxm reif = ⟨.solver reif.var, false⟩ := by unfold toAxm; rw [hpos]
  have hnot : ∀ ρ, (toAxm reif.not).val ρ = 1 - (toAxm reif).val ρ := toAxm_not_val reif
  have hval : ∀ ρ : AnyVar → Bool, (toAxm reif).val ρ = if ρ (.solver reif.var) then 1 else 0 := fun ρ => by
    rw [hreif, val_pos]
  unfold certifyAssumpReification at h
  cases hb : enc.bufferEmpty with
  | true =>
    rw [if_pos hb] at h
    obtain ⟨ha1, ha2⟩ := ha.1 hb
    cases assumps with
    | nil => cases h
    | cons a as =>
      obtain ⟨hav, hak⟩ := ha2 a rfl
      obtain ⟨⟨defs, hd⟩, hrest⟩ := ha1
      simp only at h
      rw [hd] at h
      simp only [Option.bind_eq_bind, Option.bind_some] at h
      split at h
      · cases h
      · let ps₁ : PStuff := ((({ ((ps.push (.red (clauseCon [reif.not, a]) [⟨.solver reif.var, true⟩] [])).2.push
          (.red (clauseCon [a.not, reif]) [⟨.solver reif.var, false⟩] [])).2 with
            valueMap := ps.valueMap ++ [(toAxm reif, ProofVal.identical a)] } : PStuff)).addCert [reif.not, a]
              (ps.proof.db.length + 1))
        have hdb : ps₁.proof.db = ps.proof.db ++ [some (clauseCon [reif.not, a])] ++ [some (clauseCon [a.not, reif])] := rfl
        obtain ⟨w1, w2, w3⟩ := reif_defs (ps' := ps₁) hl hf (x := toAxm a) (fun he => hav (AnyVar.solver.inj he))
          (fun k he => by cases he) (c₁ := clauseCon [reif.not, a]) (c₂ := clauseCon [a.not, reif])
          (fun ρ => by
            rw [holds_clauseCon_pair, hnot, hval]
            rcases Bool.eq_false_or_eq_true (ρ (.solver reif.var)) with hr | hr <;> simp [hr])
          (fun ρ => by
            rw [holds_clauseCon_pair, toAxm_not_val, hval]
            have := val_cases (toAxm a) ρ
            rcases Bool.eq_false_or_eq_true (ρ (.solver reif.var)) with hr | hr <;> simp [hr]
            omega)
          (fun v hm => by
            obtain ⟨l, hl', rfl⟩ := clauseCon_mentions hm
            rcases List.mem_cons.1 hl' with rfl | hl'
            · exact Or.inl rfl
            · cases List.mem_singleton.1 hl'
              exact Or.inr rfl)
          (fun v hm => by
            obtain ⟨l, hl', rfl⟩ := clauseCon_mentions hm
            rcases List.mem_cons.1 hl' with rfl | hl'
            · exact Or.inr rfl
            · cases List.mem_singleton.1 hl'
              exact Or.inl rfl)
          (key := toAxm reif) (val := .identical a) rfl
          (fun ρ _ hm => by
            have := hm.1 _ _ (List.mem_singleton.2 rfl)
            rw [← this, hval]
            rcases Bool.eq_false_or_eq_true (ρ (.solver reif.var)) with hr | hr <;> simp [hr])
          (fun that he => by
            cases he
            exact ⟨hav, hak⟩)
          (by simp [ps₁, PStuff.push, PStuff.addCert, Pf.push, Pf.write]) hdb rfl rfl rfl
        have hc1 : Spec.Certified ps ps₁ [[reif.not, a]] := by
          refine ⟨[([reif.not, a], ps.proof.db.length + 1)], rfl, rfl, fun x hx => ?_⟩
          cases List.mem_singleton.1 hx
          rw [hdb]
          exact ConDb.get_append _ (ConDb.get_new _ _)
        have hget1 : ps₁.proof.db.get (ps.proof.db.length + 1) = some (clauseCon [reif.not, a]) := by
          rw [hdb]
          exact ConDb.get_append _ (ConDb.get_new _ _)
        have hget2 : ps₁.proof.db.get (ps.proof.db.length + 2) = some (clauseCon [a.not, reif]) := by
          rw [hdb]
          have := ConDb.get_new (ps.proof.db ++ [some (clauseCon [reif.not, a])]) (clauseCon [a.not, reif])
          simpa using this
        have hid1 : (ps.push (.red (clauseCon [reif.not, a]) [⟨.solver reif.var, true⟩] [])).1 = ps.proof.db.length + 1 := rfl
        have hid2 : ((ps.push (.red (clauseCon [reif.not, a]) [⟨.solver reif.var, true⟩] [])).2.push
          (.red (clauseCon [a.not, reif]) [⟨.solver reif.var, false⟩] [])).1 = ps.proof.db.length + 2 := by
          simp [PStuff.push, Pf.push, Pf.nextId, Pf.write, ProofStep.apply]
        split at h
        · rename_i has
          rw [List.isEmpty_iff] at has
          subst has
          simp only [Option.some.injEq, Prod.mk.injEq] at h
          obtain ⟨rfl, rfl⟩ := h
          refine ⟨w1, w2, w3, hc1, fun _ a' ha' => ?_, fun he => (by cases he)⟩
          cases ha'
          rw [hid2]
          exact hget2
        · obtain ⟨firstIfDef, hif, h⟩ := Option.bind_eq_some_iff.1 h
          obtain ⟨ps₂, hfur, h⟩ := Option.bind_eq_some_iff.1 h
          simp only [Option.some.injEq, Prod.mk.injEq] at h
          obtain ⟨rfl, rfl⟩ := h
          obtain ⟨q, _⟩ := reifyFurther_spec (ord := Spec.ParetoOrder objs) (base := base) (ps := ps₁) hd hif w3 (hK.mono w2)
            hget1 (le_refl _) hrest hfur
          refine ⟨w1.trans q.writes, w2.trans q.keeps, q.state, hc1.trans q.certified q.keeps, fun _ a' ha' => ?_,
            fun he => (by cases he)⟩
          cases ha'
          rw [hid2]
          exact q.keeps _ _ hget2
  | false =>
    rw [if_neg (by simp [hb])] at h
    have ha1 := ha.2 hb
    obtain ⟨k, d₁, d₂, ps₀, he, g1, g2, g3, hg⟩ := getObjBound_logState (paretoOrder_solver objs) (value := value) ho hl
    have hf₀ := getObjBound_freshVar (List.mem_of_getElem? ho) hf he
    rw [he] at h
    have hideal : ∀ ρ, (∀ c ∈ Spec.live ps₀.proof.db, c.Holds ρ) → ((⟨.proof k, false⟩ : Axm AnyVar).val ρ = 1 ↔ value ≤ Spec.objSum obj ρ) := by
      intro ρ hρ
      have := (boundDefs_iff obj value (.proof k) ρ).1 ⟨hρ _ (mem_live_of_get g1), hρ _ (mem_live_of_get g2)⟩
      rw [val_pos, ← this]
      simp
    have hx : ∀ ρ : AnyVar → Bool, (⟨.proof k, false⟩ : Axm AnyVar).not.val ρ =
        1 - (⟨.proof k, false⟩ : Axm AnyVar).val ρ := fun ρ => Axm.val_not ρ _
    let c₁ : LbCon AnyVar := .clause [toAxm reif.not, (⟨.proof k, false⟩ : Axm AnyVar).not]
    let c₂ : LbCon AnyVar := .clause [toAxm reif, (⟨.proof k, false⟩ : Axm AnyVar)]
    let ps₁ : PStuff := ({ ((ps₀.push (.red c₁ [⟨.solver reif.var, true⟩] [])).2.push
          (.red c₂ [⟨.solver reif.var, false⟩] [])).2 with
            valueMap := ps₀.valueMap ++ [(toAxm reif.not, ProofVal.objAtLeast obj.idx value)] } : PStuff)
    have hdb : ps₁.proof.db = ps₀.proof.db ++ [some c₁] ++ [some c₂] := rfl
    obtain ⟨w1, w2, w3⟩ := reif_defs (ps' := ps₁) hg.state hf₀ (x := (⟨.proof k, false⟩ : Axm AnyVar).not)
      (fun he => by cases he)
      (fun k' hk' => by
        have h5 := hg.state.below _ g3 k rfl
        cases hk'
        exact h5) (c₁ := c₁) (c₂ := c₂)
      (fun ρ => by
        rw [holds_pair, hnot, hval]
        rcases Bool.eq_false_or_eq_true (ρ (.solver reif.var)) with hr | hr <;> simp [hr])
      (fun ρ => by
        rw [holds_pair, hx, hval]
        have := val_cases (⟨.proof k, false⟩ : Axm AnyVar) ρ
        rcases Bool.eq_false_or_eq_true (ρ (.solver reif.var)) with hr | hr <;> simp [hr]
        omega)
      (fun v hm => by
        obtain ⟨p, hp, rfl⟩ := hm
        simp only [c₁, LbCon.clause, List.map_cons, List.map_nil, List.mem_cons, List.not_mem_nil, or_false] at hp
        rcases hp with rfl | rfl
        · exact Or.inl rfl
        · exact Or.inr rfl)
      (fun v hm => by
        obtain ⟨p, hp, rfl⟩ := hm
        simp only [c₂, LbCon.clause, List.map_cons, List.map_nil, List.mem_cons, List.not_mem_nil, or_false] at hp
        rcases hp with rfl | rfl
        · exact Or.inl rfl
        · exact Or.inr rfl)
      (key := toAxm reif.not) (val := .objAtLeast obj.idx value) rfl
      (fun ρ hρ hm => by
        have h5 := hm.2 _ _ _ (List.mem_singleton.2 rfl) obj ho
        have h6 := hideal ρ hρ
        rw [← h6, hnot, hval] at h5
        have := val_cases (⟨.proof k, false⟩ : Axm AnyVar) ρ
        rw [hx]
        rcases Bool.eq_false_or_eq_true (ρ (.solver reif.var)) with hr | hr
        · simp only [hr, if_true, true_iff] at *
          omega
        · simp [hr] at *
          omega)
      (fun that he => by cases he)
      (by simp [ps₁, PStuff.push, Pf.push, Pf.write]) hdb rfl rfl rfl
    have hget1 : ps₁.proof.db.get (ps₀.proof.db.length + 1) = some c₁ := by
      rw [hdb]
      exact ConDb.get_append _ (ConDb.get_new _ _)
    have hget2 : ps₁.proof.db.get (ps₀.proof.db.length + 2) = some c₂ := by
      rw [hdb]
      have := ConDb.get_new (ps₀.proof.db ++ [some c₁]) c₂
      simpa using this
    simp only [Option.bind_eq_bind] at h
    obtain ⟨ps₂, hbuf, h⟩ := Option.bind_eq_some_iff.1 h
    simp only [Option.some.injEq, Prod.mk.injEq] at h
    obtain ⟨rfl, rfl⟩ := h
    have hid2 : ((ps₀.push (.red c₁ [⟨.solver reif.var, true⟩] [])).2.push
          (.red c₂ [⟨.solver reif.var, false⟩] [])).1 = ps₀.proof.db.length + 2 := by
      simp [PStuff.push, Pf.push, Pf.nextId, Pf.write, ProofStep.apply]
    obtain ⟨q, _⟩ := reifyBuffered_spec (ord := Spec.ParetoOrder objs) (base := base) (ps := ps₁) hb w3
      ((hK.mono hg.keeps).mono w2) hget1 (w2 _ _ g1) (le_refl _) ha1 hbuf
    have hc : Spec.Certified ps ps₂ (assumps.map fun a => [reif.not, a]) := by
      obtain ⟨n, h1, h2, h3⟩ := q.certified
      refine ⟨n, ?_, h2, h3⟩
      rw [h1]
      show ps₀.added ++ n = _
      rw [hg.added]
    refine ⟨(hg.writes.trans w1).trans q.writes, (hg.keeps.trans w2).trans q.keeps, q.state, hc, fun he => (by cases he),
      fun _ => ⟨⟨.proof k, false⟩, ?_, ⟨d₁, d₂, ?_⟩, fun ρ hρ => hideal ρ fun c hc => hρ c (live_of_keeps (w2.trans q.keeps) hc)⟩⟩
    · show ps₂.proof.db.get ((ps₀.push (.red c₁ [⟨.solver reif.var, true⟩] [])).2.push
          (.red c₂ [⟨.solver reif.var, false⟩] [])).1 = _
      rw [hid2]
      exact q.keeps _ _ hget2
    · rw [(reifyBuffered_frame hbuf).2]
      have := getObjBound_remembered value obj ps
      rw [he] at this
      exact this

/-! ## Examples -/

/-- Two literals, outputs 2 and 3 for at least one and at least two of them. -/
def reifObj : Objective := .weighted 0 [(⟨0, false⟩, 1), (⟨1, false⟩, 1)] 0 0

def reifEnc : EncView :=
  ⟨true, 2, 0, fun v => if v = 1 then some (⟨2, false⟩, ⟨some 2, some 1⟩) else if v = 2 then some (⟨3, false⟩, ⟨none, some 3⟩)
    else none, fun v => v + 1, fun _ => none, fun _ => []⟩

/-- The definitions of the outputs. -/
def reifStart : PStuff :=
  { proof :=
      { db := [some ⟨[(1, ⟨.solver 0, false⟩), (1, ⟨.solver 1, false⟩), (1, ⟨.solver 2, true⟩)], 1⟩,
          some ⟨[(1, ⟨.solver 0, true⟩), (1, ⟨.solver 1, true⟩), (2, ⟨.solver 2, false⟩)], 2⟩,
          some ⟨[(1, ⟨.solver 0, false⟩), (1, ⟨.solver 1, false⟩), (2, ⟨.solver 3, true⟩)], 2⟩]
        steps := [], nInput := 0, nProofVars := 0 }
    valueMap := [], bounds := [], added := [] }

def reifWitness : Assignment := [.ff, .ff, .ff, .ff]

theorem reifStart_mem {c : LbCon AnyVar} (h : c ∈ Spec.live reifStart.proof.db) :
    c = ⟨[(1, ⟨.solver 0, false⟩), (1, ⟨.solver 1, false⟩), (1, ⟨.solver 2, true⟩)], 1⟩ ∨
      c = ⟨[(1, ⟨.solver 0, true⟩), (1, ⟨.solver 1, true⟩), (2, ⟨.solver 2, false⟩)], 2⟩ ∨
      c = ⟨[(1, ⟨.solver 0, false⟩), (1, ⟨.solver 1, false⟩), (2, ⟨.solver 3, true⟩)], 2⟩ := by
  rw [mem_live] at h
  simpa [reifStart] using h

theorem reifStart_mentions {c : LbCon AnyVar} (h : c ∈ Spec.live reifStart.proof.db) {v : AnyVar} (hm : Spec.Mentions c v) :
    v = .solver 0 ∨ v = .solver 1 ∨ v = .solver 2 ∨ v = .solver 3 := by
  obtain ⟨p, hp, rfl⟩ := hm
  rcases reifStart_mem h with rfl | rfl | rfl <;>
    (simp only [List.mem_cons, List.not_mem_nil, or_false] at hp; rcases hp with rfl | rfl | rfl <;> simp)

theorem reifStart_state : Spec.LogState [reifObj] reifWitness reifStart where
  bounds := fun _ _ _ _ _ h => by cases h
  fresh := by
    intro c hc k hm
    rcases reifStart_mentions hc hm with h | h | h | h <;> cases h
  keys := List.nodup_nil
  below := fun _ h => by cases h
  identical := fun _ _ h => by cases h
  solves := by
    intro ρ hw _ c hc
    have h0 : ρ (.solver 0) = false := hw 0 false (by decide) (by simp [reifStart])
    have h1 : ρ (.solver 1) = false := hw 1 false (by decide) (by simp [reifStart])
    have h2 : ρ (.solver 2) = false := hw 2 false (by decide) (by simp [reifStart])
    have h3 : ρ (.solver 3) = false := hw 3 false (by decide) (by simp [reifStart])
    rcases reifStart_mem hc with rfl | rfl | rfl <;> simp [LbCon.Holds, LbCon.lhs, Axm.val, h0, h1, h2, h3]

theorem reifStart_fresh : Spec.FreshVar [reifObj] reifStart 4 where
  db := by
    intro c hc hm
    rcases reifStart_mentions hc hm with h | h | h | h <;> cases h
  objs := by
    intro o ho p hp
    cases List.mem_singleton.1 ho
    simp only [reifObj, Objective.iter, List.mem_cons, List.not_mem_nil, or_false] at hp
    rcases hp with rfl | rfl <;> simp
  keys := fun _ h => by cases h
  that := fun _ _ h => by cases h

theorem reifEnc_details {val : Nat} {olit : Lit} {defs : SemDefs} (h : reifEnc.details val = some (olit, defs)) :
    (val = 1 ∧ olit = ⟨2, false⟩ ∧ defs = ⟨some 2, some 1⟩) ∨ (val = 2 ∧ olit = ⟨3, false⟩ ∧ defs = ⟨none, some 3⟩) := by
  unfold reifEnc at h
  simp only at h
  split at h
  · cases h; exact Or.inl ⟨‹_›, rfl, rfl⟩
  · split at h
    · cases h; exact Or.inr ⟨‹_›, rfl, rfl⟩
    · cases h

theorem reifStart_contract : Spec.ReifContract reifStart.proof.db reifEnc reifObj 1 (Spec.objSum reifObj) 0 2 where
  range := by decide
  higher := fun v => Nat.lt_succ_self v
  ifDef := by
    intro val olit defs d h h'
    rcases reifEnc_details h with ⟨rfl, rfl, rfl⟩ | ⟨rfl, rfl, rfl⟩
    · cases h'
      refine ⟨_, rfl, fun ρ => ?_⟩
      rw [LbCon.slack_def]
      simp only [List.map_cons, List.map_nil, List.sum_cons, List.sum_nil, Spec.objSum, Spec.linear, Objective.iter, reifObj,
          Spec.LitTrue, Spec.solverAsg, toAxm, Axm.val]
      rcases Bool.eq_false_or_eq_true (ρ (.solver 0)) with h0 | h0 <;>
        rcases Bool.eq_false_or_eq_true (ρ (.solver 1)) with h1 | h1 <;>
          rcases Bool.eq_false_or_eq_true (ρ (.solver 2)) with h2 | h2 <;> simp [h0, h1, h2]
    · cases h'
  onlyIfDef := by
    intro val olit defs d h h'
    rcases reifEnc_details h with ⟨rfl, rfl, rfl⟩ | ⟨rfl, rfl, rfl⟩ <;> cases h'
    · refine ⟨_, rfl, fun ρ => ?_⟩
      rw [LbCon.slack_def]
      simp only [List.map_cons, List.map_nil, List.sum_cons, List.sum_nil, Spec.objSum, Spec.linear, Objective.iter, reifObj,
          Spec.LitTrue, Spec.solverAsg, toAxm, Axm.val]
      rcases Bool.eq_false_or_eq_true (ρ (.solver 0)) with h0 | h0 <;>
        rcases Bool.eq_false_or_eq_true (ρ (.solver 1)) with h1 | h1 <;>
          rcases Bool.eq_false_or_eq_true (ρ (.solver 2)) with h2 | h2 <;> simp [h0, h1, h2]
    · refine ⟨_, rfl, fun ρ => ?_⟩
      rw [LbCon.slack_def]
      simp only [List.map_cons, List.map_nil, List.sum_cons, List.sum_nil, Spec.objSum, Spec.linear, Objective.iter, reifObj,
          Spec.LitTrue, Spec.solverAsg, toAxm, Axm.val]
      rcases Bool.eq_false_or_eq_true (ρ (.solver 0)) with h0 | h0 <;>
        rcases Bool.eq_false_or_eq_true (ρ (.solver 1)) with h1 | h1 <;>
          rcases Bool.eq_false_or_eq_true (ρ (.solver 3)) with h2 | h2 <;> simp [h0, h1, h2]
  distinct := by
    intro val val' olit olit' defs defs' hlt h h'
    rcases reifEnc_details h with ⟨rfl, rfl, rfl⟩ | ⟨rfl, rfl, rfl⟩ <;>
      rcases reifEnc_details h' with ⟨rfl, rfl, rfl⟩ | ⟨rfl, rfl, rfl⟩ <;> simp at hlt ⊢
  part := fun h => by cases h

/-- Two assumptions: the second clause is derived from the first by the implication between the outputs. -/
example : Spec.ReifAssumps reifEnc reifObj 1 ⟨4, false⟩ reifStart [⟨2, true⟩, ⟨3, true⟩] :=
  ⟨fun _ => ⟨⟨⟨_, rfl⟩, ⟨_, rfl⟩, trivial⟩, fun a ha => by cases ha; exact ⟨by decide, fun _ h => by cases h⟩⟩,
    fun h => by cases h⟩

example : (certifyAssumpReification true reifObj reifEnc 1 ⟨4, false⟩ [⟨2, true⟩, ⟨3, true⟩] reifStart).map
    (fun r => (r.1, r.2.added, r.2.proof.db.get 6)) =
      some (5, [([⟨4, true⟩, ⟨2, true⟩], 4), ([⟨4, true⟩, ⟨3, true⟩], 7)], none) := by decide +kernel

/-- While the encoding only counts the first literal. -/
def bufEnc : EncView :=
  ⟨false, 2, 0, fun v => if v = 1 then some (⟨2, false⟩, ⟨none, some 1⟩) else none, fun v => v + 1, fun _ => none, fun _ => []⟩

def bufStart : PStuff :=
  { proof :=
      { db := [some ⟨[(1, ⟨.solver 0, false⟩), (1, ⟨.solver 2, true⟩)], 1⟩], steps := [], nInput := 0, nProofVars := 0 }
    valueMap := [], bounds := [], added := [] }

theorem bufEnc_details {val : Nat} {olit : Lit} {defs : SemDefs} (h : bufEnc.details val = some (olit, defs)) :
    val = 1 ∧ olit = ⟨2, false⟩ ∧ defs = ⟨none, some 1⟩ := by
  unfold bufEnc at h
  simp only at h
  split at h
  · cases h; exact ⟨‹_›, rfl, rfl⟩
  · cases h

theorem bufStart_contract : Spec.ReifContract bufStart.proof.db bufEnc reifObj 1
    (fun ρ => if ρ (.solver 0) then 1 else 0) 0 1 where
  range := by decide
  higher := fun v => Nat.lt_succ_self v
  ifDef := by
    intro val olit defs d h h'
    obtain ⟨rfl, rfl, rfl⟩ := bufEnc_details h
    cases h'
  onlyIfDef := by
    intro val olit defs d h h'
    obtain ⟨rfl, rfl, rfl⟩ := bufEnc_details h
    cases h'
    refine ⟨_, rfl, fun ρ => ?_⟩
    rw [LbCon.slack_def]
    simp only [List.map_cons, List.map_nil, List.sum_cons, List.sum_nil, toAxm, Axm.val]
    rcases Bool.eq_false_or_eq_true (ρ (.solver 0)) with h0 | h0 <;>
      rcases Bool.eq_false_or_eq_true (ρ (.solver 2)) with h2 | h2 <;> simp [h0, h2]
  distinct := by
    intro val val' olit olit' defs defs' hlt h h'
    obtain ⟨rfl, _⟩ := bufEnc_details h
    obtain ⟨rfl, _⟩ := bufEnc_details h'
    omega
  part := fun _ => ⟨rfl, fun ρ => by
    simp only [Spec.objSum, Spec.linear, Objective.iter, reifObj, Spec.LitTrue, Spec.solverAsg]
    rcases Bool.eq_false_or_eq_true (ρ (.solver 0)) with h0 | h0 <;> simp [h0]⟩

example : Spec.ReifAssumps bufEnc reifObj 1 ⟨4, false⟩ bufStart [⟨1, true⟩, ⟨2, true⟩] :=
  ⟨fun h => (by cases h), fun _ => ⟨⟨2, false⟩, _, rfl, Or.inl ⟨by decide, ⟨1, le_refl _, by decide⟩,
    ⟨⟨2, false⟩, _, rfl, Or.inr ⟨by decide, rfl, trivial⟩⟩⟩⟩⟩

example : (certifyAssumpReification true reifObj bufEnc 1 ⟨4, false⟩ [⟨1, true⟩, ⟨2, true⟩] bufStart).map
    (fun r => (r.1, r.2.added)) = some (5, [([⟨4, true⟩, ⟨1, true⟩], 6), ([⟨4, true⟩, ⟨2, true⟩], 8)]) := by
  decide +kernel

/-- The definitions meet the hypotheses of `implication_derived`. -/
example : ∃ c, (implOps 2 3 3).eval reifStart.proof.db = some c ∧
    LbCon.Same c (.clause [⟨.solver 2, false⟩, (⟨.solver 3, false⟩ : Axm AnyVar).not]) := by
  obtain ⟨c₁, g1, h1⟩ := reifStart_contract.ifDef 1 _ _ 2 rfl rfl
  obtain ⟨c₂, g2, h2⟩ := reifStart_contract.onlyIfDef 2 _ _ 3 rfl rfl
  obtain ⟨c, h3, h4, _⟩ := implication_derived (D := 3) g1 g2 h1 h2 (by decide) (by decide) (by decide)
    (by simp [toAxm]) (by decide)
  exact ⟨c, h3, h4⟩

end Scuttle
