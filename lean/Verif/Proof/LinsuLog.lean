import Verif.Proof.Extend
import Verif.SpecLinsu

/-!
# Lemmas on lower bounds in the proof
-/

set_option linter.unusedSectionVars false

namespace Scuttle

variable {ord : (AnyVar → Bool) → (AnyVar → Bool) → Prop} {objs : List Objective} {base : Assignment}

theorem LbCon.Same.not_holds {c : LbCon AnyVar} {xs : List (Axm AnyVar)} (h : c.Same (.clause xs)) {ρ : AnyVar → Bool}
    (hx : ∀ x ∈ xs, x.val ρ = 0) : ¬ c.Holds ρ := by
  rw [h.holds]; exact not_clause.2 hx

/-- A clause follows from another one if each literal of the other one is in it, or made false by a constraint once a literal
of the clause is false. -/
theorem rup_of_core {hs : List (LbCon AnyVar)} {xs ys : List (Axm AnyVar)} {d : LbCon AnyVar} (hd : d ∈ hs)
    (hsame : d.Same (.clause xs))
    (h : ∀ x ∈ xs, x ∈ ys ∨ ∃ y ∈ ys, ∃ c ∈ hs, ∀ ρ, c.Holds ρ → y.val ρ = 0 → x.val ρ = 0) : Spec.Rup hs (.clause ys) := by
  unfold Spec.Rup
  refine Spec.Conflicts.refuted ys (fun x hx => ⟨_, List.mem_cons_self .., fun ρ _ hh => ?_⟩) fun σ₁ h1 => ?_
  · rw [LbCon.holds_neg] at hh
    exact not_clause.1 hh x hx
  · refine Spec.Conflicts.refuted xs (fun x hx => ?_) fun σ₂ h2 => ?_
    · rcases h x hx with hy | ⟨y, hy, c, hc', hx'⟩
      · exact ⟨_, List.mem_cons_self .., fun ρ hr _ => (h1 ρ hr).2 _ hy⟩
      · exact ⟨c, List.mem_cons_of_mem _ hc', fun ρ hr hh => hx' ρ hh ((h1 ρ hr).2 _ hy)⟩
    · exact .conflict (List.mem_cons_of_mem _ hd) fun ρ hr hh => hsame.not_holds (h2 ρ hr).2 hh

theorem coreStart_spec {core : List Lit} : ∀ {bas : List Lit} {s start : Nat}, coreStart core bas s = some start →
    ∀ B : List Lit, (∀ b ∈ bas, b ∈ B) → (∀ c ∈ core.take s, c.not ∈ B) → ∀ c ∈ core.take start, c.not ∈ B
  | [], s, start, h, B, _, hs, c, hc => by
    simp only [coreStart, Option.some.injEq] at h
    subst h
    exact hs c hc
  | ba :: bas, s, start, h, B, hB, hs, c, hc => by
    simp only [coreStart] at h
    obtain ⟨x, hx, h⟩ := Option.bind_eq_some_iff.1 h
    refine coreStart_spec h B (fun b hb => hB b (List.mem_cons_of_mem _ hb)) (fun c hc => ?_) c hc
    split at hc
    · rename_i he
      rw [List.take_add_one, hx] at hc
      rcases List.mem_append.1 hc with hc | hc
      · exact hs c hc
      · cases List.mem_singleton.1 hc
        rw [he, Lit.not_not]
        exact hB ba (List.mem_cons_self ..)
    · exact hs c hc

theorem findOutput_spec {enc : EncView} {found : Lit → Bool} (hup : ∀ val, val < enc.nextHigher val) :
    ∀ {fuel val val' : Nat} {olit : Lit} {sems : SemDefs}, findOutput enc found fuel val = some (val', olit, sems) →
      enc.details val' = some (olit, sems) ∧ found olit = true ∧ val ≤ val'
  | fuel, val, val', olit, sems, h => by
    unfold findOutput at h
    obtain ⟨⟨o, d⟩, hd, h⟩ := Option.bind_eq_some_iff.1 h
    simp only at h
    split at h
    · cases h
      exact ⟨hd, ‹_›, le_refl _⟩
    · cases fuel with
      | zero => cases h
      | succ fuel =>
        obtain ⟨h1, h2, h3⟩ := findOutput_spec hup h
        have := hup val
        exact ⟨h1, h2, by omega⟩

theorem implOps_eval {db : ConDb AnyVar} {d₁ d₂ D : Nat} {c₁ c₂ : LbCon AnyVar} (g1 : db.get d₁ = some c₁)
    (g2 : db.get d₂ = some c₂) (hD : 0 < D) : (implOps d₁ d₂ D).eval db = some ((c₁.add c₂).div D).saturate := by
  unfold implOps
  simp only [Ops.eval, ConDb.find_abs, g1, g2, Option.bind_eq_bind, Option.bind_some, Option.map_some]
  rw [if_neg (by omega)]
  rfl

/-- What the loops over the literals of a core leave: for each literal a constraint that makes it false once `goal` is
false. -/
structure CoreLinks (ps ps' : PStuff) (goal : Axm AnyVar) (ids : List Nat) (cs : List Lit) : Prop where
  len : ids.length = cs.length
  new : ∀ i ∈ ids, ps.proof.db.length < i ∧ (ps'.proof.db.get i).isSome
  links : ∀ c ∈ cs, toAxm c = goal ∨ ∃ i ∈ ids, ∃ d, ps'.proof.db.get i = some d ∧
    ∀ ρ, d.Holds ρ → goal.val ρ = 0 → (toAxm c).val ρ = 0

/-- The loop over the literals with an empty buffer. -/
theorem linsuImpls_spec {enc : EncView} {obj : Objective} {fuel cost : Nat} {first : Lit} {defs₀ : SemDefs}
    {encSum : (AnyVar → Bool) → Nat} {offset total : Nat} (hd0 : enc.details cost = some (first, defs₀)) :
    ∀ {cs : List Lit} {val : Nat} {ps ps' : PStuff} {ids : List Nat}, Spec.LogState objs base ps →
      Spec.ReifContract ps.proof.db enc obj cost encSum offset total → cost ≤ val →
      linsuImpls enc fuel cost defs₀.ifDef val cs ps = some (ids, ps') →
      Deduces ord objs base ps ps' ∧ ps'.added = ps.added ∧ CoreLinks ps ps' (toAxm first) ids cs
  | [], val, ps, ps', ids, hl, _, _, h => by
    simp only [linsuImpls, Option.some.injEq, Prod.mk.injEq] at h
    obtain ⟨rfl, rfl⟩ := h
    exact ⟨Deduces.refl hl, rfl, ⟨rfl, fun i hi => (by cases hi), fun c hc => (by cases hc)⟩⟩
  | clit :: cs, val, ps, ps', ids, hl, K, hle, h => by
    simp only [linsuImpls] at h
    obtain ⟨⟨val', olit, sems⟩, hf, h⟩ := Option.bind_eq_some_iff.1 h
    obtain ⟨ifDef, hif, h⟩ := Option.bind_eq_some_iff.1 h
    obtain ⟨only, hon, h⟩ := Option.bind_eq_some_iff.1 h
    obtain ⟨⟨ids', ps₂⟩, hrec, h⟩ := Option.bind_eq_some_iff.1 h
    simp only [Option.some.injEq, Prod.mk.injEq] at h
    obtain ⟨rfl, rfl⟩ := h
    obtain ⟨f1, f2, f3⟩ := findOutput_spec K.higher hf
    have f2 := eq_of_beq f2
    subst f2
    obtain ⟨c₁, g1, g2⟩ := K.ifDef _ _ _ _ hd0 hif
    obtain ⟨c₂, g3, g4⟩ := K.onlyIfDef _ _ _ _ f1 hon
    obtain ⟨e1, e2, e3⟩ := deduces_pol (ord := ord) hl (implOps_eval g1 g3 (D := val' - cost + 1) (by omega))
    have hnext := K.higher val'
    obtain ⟨q1, q2, q3⟩ := linsuImpls_spec hd0 e1.state (K.mono e1.keeps) (show cost ≤ enc.nextHigher val' by omega) hrec
    have hid : (ps.push (.pol (implOps ifDef only (val' - cost + 1)))).1 = ps.proof.db.length + 1 := rfl
    refine ⟨e1.trans q1, q2, ⟨by simp [q3.len], fun i hi => ?_, fun c hc => ?_⟩⟩
    · rcases List.mem_cons.1 hi with rfl | hi
      · rw [q1.keeps _ _ e3, hid]
        exact ⟨by omega, rfl⟩
      · obtain ⟨h1, h2⟩ := q3.new i hi
        exact ⟨by have := e1.length; omega, h2⟩
    · rcases List.mem_cons.1 hc with rfl | hc
      · by_cases hfirst : c = first
        · exact Or.inl (by rw [hfirst])
        · right
          have hlt : cost < val' := by
            rcases Nat.lt_or_ge cost val' with h | h
            · exact h
            · have : val' = cost := by omega
              rw [this, hd0] at f1
              cases f1
              exact absurd rfl hfirst
          have hr := K.range
          have hsame := impl_same (D := val' - cost + 1) g2 g4 (by omega) (by omega) (by omega) (by omega)
            (fun he => K.distinct _ _ _ _ _ _ hlt hd0 f1 (AnyVar.solver.inj he))
          refine ⟨_, List.mem_cons_self .., _, q1.keeps _ _ e3, fun ρ hρ h0 => ?_⟩
          rw [hsame.holds, holds_pair, Axm.val_not] at hρ
          have := val_cases (toAxm c) ρ
          omega
      · rcases q3.links c hc with h1 | ⟨i, hi, d, h1, h2⟩
        · exact Or.inl h1
        · exact Or.inr ⟨i, List.mem_cons_of_mem _ hi, d, h1, h2⟩

theorem rup_direct {hs : List (LbCon AnyVar)} {ys : List (Axm AnyVar)} {d : LbCon AnyVar} (hd : d ∈ hs)
    (h : ∀ ρ, (∀ y ∈ ys, y.val ρ = 0) → ¬ d.Holds ρ) : Spec.Rup hs (.clause ys) := by
  unfold Spec.Rup
  refine Spec.Conflicts.refuted ys (fun x hx => ⟨_, List.mem_cons_self .., fun ρ _ hh => ?_⟩) fun σ₁ h1 => ?_
  · rw [LbCon.holds_neg] at hh
    exact not_clause.1 hh x hx
  · exact .conflict (List.mem_cons_of_mem _ hd) fun ρ hr hh => h ρ (h1 ρ hr).2 hh

theorem clause_pair_mentions {x : Axm AnyVar} {l : Lit} {k n : Nat} (hx : ∀ k, x.var = .proof k → k < n)
    (h : Spec.Mentions (.clause [toAxm l, x]) (.proof k)) : k < n := by
  obtain ⟨p, hp, he⟩ := h
  simp only [LbCon.clause, List.map_cons, List.map_nil, List.mem_cons, List.not_mem_nil, or_false] at hp
  rcases hp with rfl | rfl
  · cases he
  · exact hx k he

/-- The loop over the literals with a buffer. -/
theorem linsuImplsBuffered_spec {enc : EncView} {obj : Objective} {fuel cost def₁ k : Nat}
    {encSum : (AnyVar → Bool) → Nat} {offset total : Nat} (hbuf : enc.bufferEmpty = false) :
    ∀ {cs : List Lit} {val : Nat} {ps ps' : PStuff} {ids : List Nat}, Spec.LogState objs base ps →
      Spec.ReifContract ps.proof.db enc obj cost encSum offset total → cost ≤ val → k < ps.proof.nProofVars →
      ps.proof.db.get def₁ = some (boundDef₁ obj cost (.proof k)) → Spec.BufferedCore enc obj cost cs →
      linsuImplsBuffered enc fuel ⟨.proof k, false⟩ def₁ val cs ps = some (ids, ps') →
      Deduces ord objs base ps ps' ∧ ps'.added = ps.added ∧ CoreLinks ps ps' ⟨.proof k, false⟩ ids cs
  | [], val, ps, ps', ids, hl, _, _, _, _, _, h => by
    simp only [linsuImplsBuffered, Option.some.injEq, Prod.mk.injEq] at h
    obtain ⟨rfl, rfl⟩ := h
    exact ⟨Deduces.refl hl, rfl, ⟨rfl, fun i hi => (by cases hi), fun c hc => (by cases hc)⟩⟩
  | clit :: cs, val, ps, ps', ids, hl, K, hle, hk, hget, hB, h => by
    simp only [linsuImplsBuffered] at h
    obtain ⟨⟨olit, sems⟩, hd, h⟩ := Option.bind_eq_some_iff.1 h
    simp only at h
    have hlink : ∀ ρ, (LbCon.clause [toAxm clit.not, (⟨.proof k, false⟩ : Axm AnyVar)]).Holds ρ →
        (⟨.proof k, false⟩ : Axm AnyVar).val ρ = 0 → (toAxm clit).val ρ = 0 := by
      intro ρ hρ h0
      rw [holds_pair, toAxm_not_val] at hρ
      omega
    have hx : ∀ n, ps.proof.nProofVars = n → ∀ j, (⟨.proof k, false⟩ : Axm AnyVar).var = .proof j → j < n := by
      intro n hn j hj
      cases hj
      omega
    split at h
    · rename_i hlt
      obtain ⟨⟨ids', ps₂⟩, hrec, h⟩ := Option.bind_eq_some_iff.1 h
      simp only [Option.some.injEq, Prod.mk.injEq] at h
      obtain ⟨rfl, rfl⟩ := h
      obtain ⟨w, hw, hin⟩ := (hB clit (List.mem_cons_self ..) val hle olit sems hd).1 hlt
      have hrup : Spec.Rup [boundDef₁ obj cost (.proof k)] (.clause [toAxm clit.not, (⟨.proof k, false⟩ : Axm AnyVar)]) := by
        refine rup_direct (List.mem_singleton.2 rfl) fun ρ hy => ?_
        have h1 := hy _ (List.mem_cons_self ..)
        have h2 := hy ⟨.proof k, false⟩ (by simp)
        rw [toAxm_not_val] at h1
        rw [LbCon.holds_iff, boundDef₁_slack, h2]
        have h3 : Spec.LitTrue (Spec.solverAsg ρ) clit := by
          have := toAxm_val ρ clit
          by_contra hc
          rw [if_neg hc] at this
          omega
        have h4 : w ≤ Spec.objSum obj ρ := linear_ge hin h3
        omega
      obtain ⟨e1, e2, e3⟩ := deduces_rup (ord := ord) hl (hints := [.abs def₁]) (by simp [ConDb.find_abs, hget]) hrup
        (fun j hj => clause_pair_mentions (hx _ rfl) hj)
      obtain ⟨q1, q2, q3⟩ := linsuImplsBuffered_spec hbuf e1.state (K.mono e1.keeps) hle (by rw [e1.nVars]; exact hk)
        (e1.keeps _ _ hget) (fun c hc => hB c (List.mem_cons_of_mem _ hc)) hrec
      refine ⟨e1.trans q1, q2, ⟨by simp [q3.len], fun i hi => ?_, fun c hc => ?_⟩⟩
      · rcases List.mem_cons.1 hi with rfl | hi
        · rw [q1.keeps _ _ e3]
          exact ⟨Nat.lt_succ_self _, rfl⟩
        · obtain ⟨h1, h2⟩ := q3.new i hi
          exact ⟨by have := e1.length; omega, h2⟩
      · rcases List.mem_cons.1 hc with rfl | hc
        · exact Or.inr ⟨_, List.mem_cons_self .., _, q1.keeps _ _ e3, hlink⟩
        · rcases q3.links c hc with h1 | ⟨i, hi, d, h1, h2⟩
          · exact Or.inl h1
          · exact Or.inr ⟨i, List.mem_cons_of_mem _ hi, d, h1, h2⟩
    · obtain ⟨⟨val', olit', sems'⟩, hf, h⟩ := Option.bind_eq_some_iff.1 h
      obtain ⟨only, hon, h⟩ := Option.bind_eq_some_iff.1 h
      obtain ⟨⟨ids', ps₂⟩, hrec, h⟩ := Option.bind_eq_some_iff.1 h
      simp only [Option.some.injEq, Prod.mk.injEq] at h
      obtain ⟨rfl, rfl⟩ := h
      obtain ⟨f1, f2, f3⟩ := findOutput_spec K.higher hf
      have hol := (hB clit (List.mem_cons_self ..) val' (by omega) olit' sems' f1).2 (eq_of_beq f2)
      subst hol
      obtain ⟨c₂, g3, g4⟩ := K.onlyIfDef _ _ _ _ f1 hon
      obtain ⟨hoff, hpart⟩ := K.part hbuf
      have heval : (Ops.add (.id (.abs def₁)) (.id (.abs only))).eval ps.proof.db =
          some ((boundDef₁ obj cost (.proof k)).add c₂) := by
        simp only [Ops.eval, ConDb.find_abs, hget, g3, Option.bind_eq_bind, Option.bind_some]
      obtain ⟨e1, e2, e3⟩ := deduces_pol (ord := ord) hl heval
      have hrup : Spec.Rup [(boundDef₁ obj cost (.proof k)).add c₂]
          (.clause [toAxm clit.not, (⟨.proof k, false⟩ : Axm AnyVar)]) := by
        refine rup_direct (List.mem_singleton.2 rfl) fun ρ hy => ?_
        have h1 := hy _ (List.mem_cons_self ..)
        have h2 := hy ⟨.proof k, false⟩ (by simp)
        rw [toAxm_not_val] at h1
        rw [LbCon.holds_iff, LbCon.slack_add, boundDef₁_slack, g4, h2, show (toAxm clit).val ρ = 1 by omega]
        have := hpart ρ
        subst hoff
        simp only [Nat.sub_zero]
        omega
      let s₁ : ProofStep AnyVar := .pol (.add (.id (.abs def₁)) (.id (.abs only)))
      let s₂ : ProofStep AnyVar := .rup (.clause [toAxm clit.not, (⟨.proof k, false⟩ : Axm AnyVar)]) [.abs (ps.push s₁).1]
      obtain ⟨e4, e5, e6⟩ := deduces_rup (ord := ord) e1.state (hints := [.abs (ps.push s₁).1])
        (by simp only [List.mapM_cons, List.mapM_nil, ConDb.find_abs]; rw [e3]; rfl) hrup
        (fun j hj => clause_pair_mentions (hx _ e1.nVars.symm) hj)
      have hid1 : (ps.push s₁).1 = ps.proof.db.length + 1 := rfl
      have hid2 : ((ps.push s₁).2.push s₂).1 = ps.proof.db.length + 2 := by
        show (ps.push s₁).2.proof.db.length + 1 = _
        rw [e2]; simp
      have e7 := Deduces.del hl (e1.trans e4) (ids := [(ps.push s₁).1]) (fun i hi => by
        cases List.mem_singleton.1 hi
        rw [e4.keeps _ _ e3]
        exact ⟨by omega, rfl⟩)
      have e8 : (((ps.push s₁).2.push s₂).2.write (.del [(ps.push s₁).1] [])).proof.db.get ((ps.push s₁).2.push s₂).1 =
          some (.clause [toAxm clit.not, (⟨.proof k, false⟩ : Axm AnyVar)]) := by
        show (ConDb.delete _ _).get _ = _
        rw [ConDb.get_delete (by rw [List.mem_singleton]; omega)]
        exact e6
      have hnext := K.higher val'
      obtain ⟨q1, q2, q3⟩ := linsuImplsBuffered_spec hbuf e7.state (K.mono e7.keeps) (show cost ≤ enc.nextHigher val' by omega)
        (by rw [e7.nVars]; exact hk) (e7.keeps _ _ hget) (fun c hc => hB c (List.mem_cons_of_mem _ hc)) hrec
      refine ⟨e7.trans q1, q2, ⟨by simp [q3.len], fun i hi => ?_, fun c hc => ?_⟩⟩
      · rcases List.mem_cons.1 hi with rfl | hi
        · have := q1.keeps _ _ e8
          refine ⟨?_, ?_⟩
          · show _ < ((ps.push s₁).2.push s₂).1
            omega
          · show (ConDb.get _ ((ps.push s₁).2.push s₂).1).isSome
            rw [this]; rfl
        · obtain ⟨h1, h2⟩ := q3.new i hi
          exact ⟨by have := e7.length; omega, h2⟩
      · rcases List.mem_cons.1 hc with rfl | hc
        · exact Or.inr ⟨_, List.mem_cons_self .., _, q1.keeps _ _ e8, hlink⟩
        · rcases q3.links c hc with h1 | ⟨i, hi, d, h1, h2⟩
          · exact Or.inl h1
          · exact Or.inr ⟨i, List.mem_cons_of_mem _ hi, d, h1, h2⟩

/-- The position in the core after the base assumptions. -/
theorem coreStart_eq {os : List Lit} (hos : os ≠ []) : ∀ {bas bs : List Lit} {pre : List Lit}, bas.Nodup → bs.Sublist bas →
    (∀ o ∈ os, o.not ∉ bas) → coreStart (pre ++ (bs.map Lit.not ++ os)) bas pre.length = some (pre.length + bs.length)
  | [], bs, pre, _, hb, _ => by
    cases List.sublist_nil.1 hb
    simp [coreStart]
  | ba :: bas, bs, pre, hn, hb, ho => by
    obtain ⟨hn1, hn2⟩ := List.nodup_cons.1 hn
    have ho' : ∀ o ∈ os, o.not ∉ bas := fun o h hm => ho o h (List.mem_cons_of_mem _ hm)
    simp only [coreStart]
    cases bs with
    | nil =>
      obtain ⟨o, os', rfl⟩ := List.exists_cons_of_ne_nil hos
      have h1 : (pre ++ (([] : List Lit).map Lit.not ++ o :: os'))[pre.length]? = some o := by simp
      rw [h1]
      simp only [Option.bind_eq_bind, Option.bind_some]
      rw [if_neg (fun he => ho o (List.mem_cons_self ..) (by rw [he, Lit.not_not]; exact List.mem_cons_self ..))]
      exact coreStart_eq hos hn2 (List.nil_sublist _) ho'
    | cons b bs =>
      have h1 : (pre ++ ((b :: bs).map Lit.not ++ os))[pre.length]? = some b.not := by simp
      rw [h1]
      simp only [Option.bind_eq_bind, Option.bind_some]
      by_cases he : b = ba
      · subst he
        rw [if_pos rfl]
        have := coreStart_eq (pre := pre ++ [b.not]) hos hn2 (List.cons_sublist_cons.1 hb) ho'
        simp only [List.length_append, List.length_cons, List.length_nil, List.append_assoc, List.cons_append, List.nil_append,
          List.map_cons] at this ⊢
        rw [this]
        congr 1
        omega
      · rw [if_neg (fun h => he (by rw [← Lit.not_not b, h, Lit.not_not]))]
        refine coreStart_eq hos hn2 ?_ ho'
        cases hb with
        | cons _ h => exact h
        | cons_cons _ h => exact absurd rfl he

/-- The last lines: the core with its literals replaced by `goal`, and the removal of the constraints used for that. -/
theorem core_rewritten {ps ps₁ : PStuff} {goal : Axm AnyVar} {ids : List Nat} {cs core bas : List Lit} {coreId : Nat}
    {con : LbCon AnyVar} (hl : Spec.LogState objs base ps) (e : Deduces ord objs base ps ps₁)
    (L : CoreLinks ps ps₁ goal ids cs) (hcon : ps.proof.db.get coreId = some con) (hsame : con.Same (clauseCon core))
    (hcore : ∀ c ∈ core, c.not ∈ bas ∨ toAxm c = goal ∨ c ∈ cs) (hgoal : ∀ k, goal.var = .proof k → k < ps.proof.nProofVars)
    {c : LbCon AnyVar} (hc : c = .clause (bas.map (fun l => toAxm l.not) ++ [goal])) {hints : List CId}
    (hh : hints = (ids ++ [coreId]).map CId.abs) :
    Deduces ord objs base ps (ps₁.push (.rup c hints)).2 ∧
      Deduces ord objs base ps ((ps₁.push (.rup c hints)).2.write (.del ids [])) ∧
      (ps₁.push (.rup c hints)).2.proof.db.get (ps₁.push (.rup c hints)).1 = some c ∧
      ((ps₁.push (.rup c hints)).2.write (.del ids [])).proof.db.get (ps₁.push (.rup c hints)).1 = some c := by
  have hcon₁ := e.keeps _ _ hcon
  obtain ⟨hs, hm, hin⟩ := mapM_get (db := ps₁.proof.db) (ids := ids ++ [coreId]) (fun i hi => by
    rcases List.mem_append.1 hi with hi | hi
    · exact (L.new i hi).2
    · cases List.mem_singleton.1 hi
      rw [hcon₁]; rfl)
  have hlast : goal ∈ bas.map (fun l => toAxm l.not) ++ [goal] := List.mem_append_right _ (List.mem_singleton.2 rfl)
  have hrup : Spec.Rup hs c := by
    subst hc
    refine rup_of_core (hin coreId (by simp) con hcon₁) hsame fun x hx => ?_
    obtain ⟨l, hl', rfl⟩ := List.mem_map.1 hx
    rcases hcore l hl' with h | h | h
    · left
      refine List.mem_append_left _ (List.mem_map.2 ⟨_, h, ?_⟩)
      rw [Lit.not_not]
    · left
      rw [h]; exact hlast
    · rcases L.links l h with h | ⟨i, hi, d, hd, hx⟩
      · left
        rw [h]; exact hlast
      · exact Or.inr ⟨goal, hlast, d, hin i (List.mem_append_left _ hi) d hd, hx⟩
  obtain ⟨e1, e2, e3⟩ := deduces_rup (ord := ord) e.state (hints := hints) (by rw [hh]; exact hm) hrup (fun k hk => by
    rw [hc] at hk
    obtain ⟨p, hp, he⟩ := hk
    unfold LbCon.clause at hp
    obtain ⟨a, ha, rfl⟩ := List.mem_map.1 hp
    rw [e.nVars]
    rcases List.mem_append.1 ha with ha | ha
    · obtain ⟨l, _, rfl⟩ := List.mem_map.1 ha
      cases he
    · cases List.mem_singleton.1 ha
      exact hgoal k he)
  have hid : (ps₁.push (.rup c hints)).1 = ps₁.proof.db.length + 1 := rfl
  refine ⟨e.trans e1, Deduces.del hl (e.trans e1) (fun i hi => ?_), e3, ?_⟩
  · obtain ⟨h1, h2⟩ := L.new i hi
    obtain ⟨d, hd⟩ := Option.isSome_iff_exists.1 h2
    rw [e1.keeps _ _ hd]
    exact ⟨h1, rfl⟩
  · show (ConDb.delete _ _).get _ = _
    rw [ConDb.get_delete (fun hi => ?_)]
    · exact e3
    · obtain ⟨d, hd⟩ := Option.isSome_iff_exists.1 (L.new _ hi).2
      have := ConDb.get_lt hd
      omega

theorem findOutput_total {enc : EncView} {c : Lit} : ∀ {outs cs : List Lit} {fuel val : Nat}, Spec.OutputsFrom enc val outs →
    ((c :: cs).map Lit.not).Sublist outs → outs.length ≤ fuel →
    ∃ val' olit sems outs', findOutput enc (fun olit => c == olit) fuel val = some (val', olit, sems) ∧
      enc.details val' = some (olit, sems) ∧ Spec.OutputsFrom enc (enc.nextHigher val') outs' ∧
      (cs.map Lit.not).Sublist outs' ∧ outs'.length ≤ fuel
  | [], cs, fuel, val, _, hs, _ => by cases hs
  | a :: as, cs, fuel, val, ⟨⟨defs, hd⟩, ho⟩, hs, hf => by
    unfold findOutput
    rw [hd]
    simp only [Option.bind_eq_bind, Option.bind_some]
    by_cases he : c = a.not
    · rw [if_pos (beq_iff_eq.2 he)]
      refine ⟨val, a.not, defs, as, rfl, hd, ho, ?_, by simp only [List.length_cons] at hf; omega⟩
      cases hs with
      | cons _ h => exact (List.sublist_cons_self _ _).trans h
      | cons_cons _ h => exact h
    · rw [if_neg (by simpa using he)]
      cases fuel with
      | zero => simp at hf
      | succ fuel =>
        have hs' : ((c :: cs).map Lit.not).Sublist as := by
          cases hs with
          | cons _ h => exact h
          | cons_cons _ h => exact absurd (Lit.not_not c).symm he
        obtain ⟨val', olit, sems, outs', h1, h2, h3, h4, h5⟩ := findOutput_total (fuel := fuel) ho hs'
          (by simp only [List.length_cons] at hf; omega)
        exact ⟨val', olit, sems, outs', h1, h2, h3, h4, by omega⟩

theorem linsuImpls_total {enc : EncView} {fuel cost ifDef : Nat}
    (hon : ∀ val olit defs, enc.details val = some (olit, defs) → defs.onlyIfDef.isSome) :
    ∀ {cs outs : List Lit} {val : Nat} {ps : PStuff}, Spec.OutputsFrom enc val outs → (cs.map Lit.not).Sublist outs →
      outs.length ≤ fuel → ∃ r, linsuImpls enc fuel cost (some ifDef) val cs ps = some r
  | [], outs, val, ps, _, _, _ => ⟨_, rfl⟩
  | c :: cs, outs, val, ps, ho, hs, hf => by
    obtain ⟨val', olit, sems, outs', h1, h2, h3, h4, h5⟩ := findOutput_total ho hs hf
    obtain ⟨only, h6⟩ := Option.isSome_iff_exists.1 (hon _ _ _ h2)
    obtain ⟨⟨ids, ps'⟩, h7⟩ := linsuImpls_total (ifDef := ifDef) (cost := cost) hon
      (ps := (ps.push (.pol (implOps ifDef only (val' - cost + 1)))).2) h3 h4 h5
    refine ⟨((ps.push (.pol (implOps ifDef only (val' - cost + 1)))).1 :: ids, ps'), ?_⟩
    simp only [linsuImpls, h1, h6, Option.bind_eq_bind, Option.bind_some, h7]

theorem Spec.Accepted.step {V : Type} [DecidableEq V] {ord : (V → Bool) → (V → Bool) → Prop} : ∀ {steps : List (ProofStep V)}
    {db : ConDb V} {i : Nat} {s : ProofStep V}, Spec.Accepted ord db steps → steps[i]? = some s →
    Spec.StepOk ord ((steps.take i).foldl (fun db st => st.apply db) db) s
  | [], _, _, _, _, h => by cases h
  | _ :: _, _, 0, _, ⟨h1, _⟩, h => by
    cases h
    exact h1
  | _ :: _, _, i + 1, _, ⟨_, h2⟩, h => Spec.Accepted.step (i := i) h2 h

end Scuttle
