import Verif.SpecTracer
import Verif.Proof.ProofRules

/-!
# Lemmas about the proof tracer
-/

namespace Scuttle

set_option linter.unusedSectionVars false

variable {V : Type} [DecidableEq V]

namespace ConDb

theorem get_append {db : ConDb V} {i : Nat} {c : LbCon V} (x : ConDb V) (h : db.get i = some c) :
    (db ++ x).get i = some c := by
  unfold get at h ⊢
  split at h
  · cases h
  · next h0 =>
    rw [if_neg h0]
    cases h1 : db[i - 1]? with
    | none => rw [h1] at h; cases h
    | some y =>
      rw [List.getElem?_append_left (List.getElem?_eq_some_iff.1 h1).1, h1, ← h1]; exact h

theorem get_new (db : ConDb V) (c : Option (LbCon V)) : ConDb.get (db ++ [c]) (db.length + 1) = c := by
  unfold get; simp

theorem get_lt {db : ConDb V} {i : Nat} {c : LbCon V} (h : db.get i = some c) : 1 ≤ i ∧ i ≤ db.length := by
  unfold get at h
  split at h
  · cases h
  · cases h1 : db[i - 1]? with
    | none => rw [h1] at h; cases h
    | some y => have := (List.getElem?_eq_some_iff.1 h1).1; omega

theorem length_delete (db : ConDb V) (ids : List Nat) : (db.delete ids).length = db.length := by
  unfold delete; simp

theorem get_delete {db : ConDb V} {ids : List Nat} {i : Nat} (h : i ∉ ids) : (db.delete ids).get i = db.get i := by
  unfold get delete
  split
  · rfl
  · next h0 =>
    rw [List.getElem?_mapIdx]
    cases db[i - 1]? with
    | none => rfl
    | some y =>
      show (if i - 1 + 1 ∈ ids then none else y) = _
      rw [show i - 1 + 1 = i by omega, if_neg h]; rfl

theorem get_deleted {db : ConDb V} {ids : List Nat} {i : Nat} (h : i ∈ ids) : (db.delete ids).get i = none := by
  unfold get delete
  split
  · rfl
  · next h0 =>
    rw [List.getElem?_mapIdx]
    cases db[i - 1]? with
    | none => rfl
    | some y =>
      show (if i - 1 + 1 ∈ ids then none else y) = _
      rw [show i - 1 + 1 = i by omega, if_pos h]

theorem get_append_le {db : ConDb V} (x : ConDb V) {i : Nat} (h : i ≤ db.length) : (db ++ x).get i = db.get i := by
  unfold get
  split
  · rfl
  · rw [List.getElem?_append_left (by omega)]

theorem find_abs (db : ConDb V) (i : Nat) : db.find (.abs i) = db.get i := rfl

end ConDb

theorem ProofStep.length_le (db : ConDb V) (st : ProofStep V) : db.length ≤ (st.apply db).length := by
  cases st <;> simp [ProofStep.apply, ConDb.length_delete]

theorem ProofStep.apply_get {db : ConDb V} {st : ProofStep V} {i : Nat} {c : LbCon V} (h : db.get i = some c)
    (hd : ∀ ids gs, st = .del ids gs → i ∉ ids) : (st.apply db).get i = some c := by
  cases st with
  | pol => exact ConDb.get_append _ h
  | rup => exact ConDb.get_append _ h
  | red => exact ConDb.get_append _ h
  | solx => exact ConDb.get_append _ h
  | core => exact h
  | del ids gs => show (db.delete ids).get i = _; rw [ConDb.get_delete (hd ids gs rfl)]; exact h

theorem Spec.accepted_append {ord : (V → Bool) → (V → Bool) → Prop} : ∀ {db : ConDb V} {ss : List (ProofStep V)} {s : ProofStep V},
    Spec.Accepted ord db ss → Spec.StepOk ord (ss.foldl (fun db st => st.apply db) db) s →
    Spec.Accepted ord db (ss ++ [s])
  | _, [], _, _, h => ⟨h, trivial⟩
  | _, _ :: _, _, h, h' => ⟨h.1, accepted_append h.2 h'⟩

/-! ## Derivations -/

namespace Tracer

theorem foldl_reverse_cons (ids : List Nat) (a : Nat) (o : Ops) (h : derivedOps ids = some o) :
    derivedOps (a :: ids) = some (.saturate (.add o (.id (.abs a)))) := by
  unfold derivedOps at h ⊢
  rw [List.reverse_cons]
  cases hr : ids.reverse with
  | nil => rw [hr] at h; cases h
  | cons f rest =>
    rw [hr] at h
    cases h
    simp [List.foldl_append]

/-- The derivation of a clause gives the clause if the antecedents resolve to it. -/
theorem derivedOps_eval {db : ConDb AnyVar} {cs : List (List (Axm AnyVar))} {r : List (Axm AnyVar)}
    (h : Spec.Derives cs r) : ∀ {ids : List Nat}, (∀ c ∈ cs, c.Nodup) →
      List.Forall₂ (fun id c => ∃ con, db.get id = some con ∧ con.Same (.clause c)) ids cs →
      r.Nodup ∧ ∃ o con, derivedOps ids = some o ∧ o.eval db = some con ∧ con.Same (.clause r) := by
  induction h with
  | last c =>
    intro ids hn hf
    cases hf with
    | cons h1 h2 =>
      cases h2
      obtain ⟨con, h3, h4⟩ := h1
      exact ⟨hn c (by simp), _, con, rfl, h3, h4⟩
  | @resolve cs c d r p _ hr ih =>
    intro ids hn hf
    cases hf with
    | @cons i _ is _ h1 h2 =>
      obtain ⟨con, h3, h4⟩ := h1
      obtain ⟨hdn, o, con', h5, h6, h7⟩ := ih (fun e he => hn e (List.mem_cons_of_mem _ he)) h2
      refine ⟨List.Nodup.of_map _ hr.2.2.1, _, (con'.add con).saturate, foldl_reverse_cons is i o h5, ?_, ?_⟩
      · show Option.map LbCon.saturate (do
          let x ← o.eval db
          let y ← (Ops.id (.abs i)).eval db
          some (x.add y)) = _
        rw [h6]
        show Option.map LbCon.saturate (do
          let y ← db.get i
          some (con'.add y)) = _
        rw [h3]; rfl
      · exact LbCon.resolvent_same h7 h4 hdn (hn c (List.mem_cons_self ..)) hr

theorem mapId_bound {t : Tracer} {id vid : Nat} (h : t.mapId id = some vid) : vid ∈ t.cmap := by
  unfold mapId at h
  split at h
  · cases h
  · exact List.mem_of_getElem? h

theorem mapId_inj {t : Tracer} (hn : t.cmap.Nodup) {i j vid : Nat} (hi : t.mapId i = some vid) (hj : t.mapId j = some vid) :
    i = j := by
  unfold mapId at hi hj
  split at hi
  · cases hi
  · split at hj
    · cases hj
    · obtain ⟨h1, h2⟩ := List.getElem?_eq_some_iff.1 hi
      obtain ⟨h3, h4⟩ := List.getElem?_eq_some_iff.1 hj
      have := (List.Nodup.getElem_inj_iff hn (hi := h1) (hj := h3)).1 (h2.trans h4.symm)
      omega

theorem mapId_append {t : Tracer} {cmap : List Nat} {x : List Nat} {p : Pf AnyVar} (h : cmap = t.cmap ++ x) {i vid : Nat}
    (hi : t.mapId i = some vid) {ci w as cc} : (Tracer.mk p cmap ci w as cc).mapId i = some vid := by
  unfold mapId at hi ⊢
  split at hi
  · cases hi
  · next h0 =>
    rw [if_neg h0]
    show cmap[i - 1]? = _
    rw [h, List.getElem?_append_left (List.getElem?_eq_some_iff.1 hi).1, hi]

theorem mapId_new {p : Pf AnyVar} {cmap : List Nat} {vid n : Nat} (hn : cmap.length = n) {ci w as cc} :
    (Tracer.mk p (cmap ++ [vid]) ci w as cc).mapId (n + 1) = some vid := by
  unfold mapId; simp [hn]

end Tracer

/-! ## Events -/

namespace Spec

variable {ord : (AnyVar → Bool) → (AnyVar → Bool) → Prop} {cfg : TracerCfg} {db₀ : ConDb AnyVar} {dead : List Nat}
  {s : TracedSolver}

/-- A line that does not remove constraints of clauses. -/
theorem Traced.write (h : Traced ord db₀ dead s) {st : ProofStep AnyVar} (hst : StepOk ord s.tracer.proof.db st)
    (hd : ∀ ids gs, st = .del ids gs → ∀ i ∈ ids, i ∉ s.tracer.cmap) {t : Tracer}
    (hp : t.proof = s.tracer.proof.write st) (hc : t.cmap = s.tracer.cmap) : Traced ord db₀ dead ⟨s.clauses, t⟩ := by
  refine ⟨?_, ?_, ?_, ?_, ?_, ?_⟩
  · show t.cmap.length = _; rw [hc]; exact h.length
  · show t.cmap.Nodup; rw [hc]; exact h.nodup
  · show ∀ vid ∈ t.cmap, vid ≤ t.proof.db.length
    rw [hc, hp]
    intro vid hv
    exact (h.bound vid hv).trans (ProofStep.length_le _ _)
  · intro id hid
    obtain ⟨vid, con, c, h1, h2, h3, h4⟩ := h.found id hid
    refine ⟨vid, con, c, ?_, ?_, h3, h4⟩
    · show t.mapId id = _
      unfold Tracer.mapId at h1 ⊢; rw [hc]; exact h1
    · show t.proof.db.get vid = _
      rw [hp]
      exact ProofStep.apply_get h2 fun ids gs he hi => hd ids gs he vid hi (Tracer.mapId_bound h1)
  · show t.proof.db = t.proof.steps.foldl _ db₀
    rw [hp]
    show st.apply s.tracer.proof.db = (s.tracer.proof.steps ++ [st]).foldl _ db₀
    rw [List.foldl_append, ← h.db]; rfl
  · show Accepted ord db₀ t.proof.steps
    rw [hp]
    refine accepted_append h.accepted ?_
    rw [← h.db]; exact hst

/-- Only other parts of the tracer change. -/
theorem Traced.other (h : Traced ord db₀ dead s) {t : Tracer} (hp : t.proof = s.tracer.proof)
    (hc : t.cmap = s.tracer.cmap) : Traced ord db₀ dead ⟨s.clauses, t⟩ := by
  refine ⟨?_, ?_, ?_, ?_, ?_, ?_⟩
  · show t.cmap.length = _; rw [hc]; exact h.length
  · show t.cmap.Nodup; rw [hc]; exact h.nodup
  · show ∀ vid ∈ t.cmap, vid ≤ t.proof.db.length
    rw [hc, hp]; exact h.bound
  · intro id hid
    obtain ⟨vid, con, c, h1, h2, h3, h4⟩ := h.found id hid
    refine ⟨vid, con, c, ?_, ?_, h3, h4⟩
    · show t.mapId id = _
      unfold Tracer.mapId at h1 ⊢; rw [hc]; exact h1
    · show t.proof.db.get vid = _
      rw [hp]; exact h2
  · show t.proof.db = t.proof.steps.foldl _ db₀
    rw [hp]; exact h.db
  · show Accepted ord db₀ t.proof.steps
    rw [hp]; exact h.accepted

/-- A clause with its own constraint is new. -/
theorem Traced.clause (h : Traced ord db₀ dead s) {c : Clause} {vid : Nat} {con : LbCon AnyVar}
    (hg : s.tracer.proof.db.get vid = some con) (hs : con.Same (clauseCon c)) (hv : vid ∉ s.tracer.cmap) {t : Tracer}
    (hp : t.proof = s.tracer.proof) (hc : t.cmap = s.tracer.cmap ++ [vid]) :
    Traced ord db₀ dead ⟨s.clauses ++ [c], t⟩ := by
  have hmap : t.mapId (s.clauses.length + 1) = some vid := by
    unfold Tracer.mapId; simp [hc, h.length]
  refine ⟨?_, ?_, ?_, ?_, ?_, ?_⟩
  · show t.cmap.length = _; rw [hc]; simp [h.length]
  · show t.cmap.Nodup; rw [hc]
    rw [List.nodup_append]
    exact ⟨h.nodup, by simp, fun a ha b hb he => hv (by simp at hb; rw [← hb, ← he]; exact ha)⟩
  · show ∀ vid ∈ t.cmap, vid ≤ t.proof.db.length
    rw [hc, hp]
    intro w hw
    rcases List.mem_append.1 hw with hw | hw
    · exact h.bound w hw
    · simp at hw; subst hw; exact (ConDb.get_lt hg).2
  · intro id hid
    obtain ⟨h1, h2, h3⟩ := hid
    change id ≤ (s.clauses ++ [c]).length at h2
    by_cases he : id = s.clauses.length + 1
    · subst he
      exact ⟨vid, con, c, hmap, by show t.proof.db.get vid = _; rw [hp]; exact hg, by simp, hs⟩
    · have hk : Known dead s id := ⟨h1, by simp at h2; omega, h3⟩
      obtain ⟨vid', con', c', h4, h5, h6, h7⟩ := h.found id hk
      refine ⟨vid', con', c', ?_, ?_, ?_, h7⟩
      · exact Tracer.mapId_append hc h4
      · show t.proof.db.get vid' = _
        rw [hp]; exact h5
      · show (s.clauses ++ [c])[id - 1]? = _
        rw [List.getElem?_append_left (List.getElem?_eq_some_iff.1 h6).1]; exact h6
  · show t.proof.db = t.proof.steps.foldl _ db₀
    rw [hp]; exact h.db
  · show Accepted ord db₀ t.proof.steps
    rw [hp]; exact h.accepted

/-- The constraints of antecedents. -/
theorem Traced.antecedents (h : Traced ord db₀ dead s) : ∀ {ids : List Nat}, (∀ i ∈ ids, Known dead s i) →
    ∃ vids, ids.mapM s.tracer.mapId = some vids ∧
      List.Forall₂ (fun vid c => ∃ con, s.tracer.proof.db.get vid = some con ∧ con.Same (.clause c)) vids
        (Spec.antecedents s ids)
  | [], _ => ⟨[], rfl, .nil⟩
  | i :: ids, hk => by
    obtain ⟨vids, h1, h2⟩ := Traced.antecedents h fun j hj => hk j (List.mem_cons_of_mem _ hj)
    obtain ⟨vid, con, c, h3, h4, h5, h6⟩ := h.found i (hk i (List.mem_cons_self ..))
    refine ⟨vid :: vids, ?_, ?_⟩
    · rw [List.mapM_cons, h3, h1]; rfl
    · have : Spec.antecedents s (i :: ids) = c.map toAxm :: Spec.antecedents s ids := by
        unfold Spec.antecedents
        rw [List.filterMap_cons, h5]; rfl
      rw [this]
      exact .cons ⟨con, h4, h6⟩ h2

theorem mapM_find {db : ConDb V} {P : LbCon V → List (Axm V) → Prop} : ∀ {vids : List Nat} {cs : List (List (Axm V))},
    List.Forall₂ (fun vid c => ∃ con, db.get vid = some con ∧ P con c) vids cs →
    ∃ hs, (vids.map CId.abs).mapM db.find = some hs ∧ List.Forall₂ P hs cs
  | _, _, .nil => ⟨[], rfl, .nil⟩
  | _, _, .cons ⟨con, h1, h2⟩ h => by
    obtain ⟨hs, h3, h4⟩ := mapM_find h
    refine ⟨con :: hs, ?_, .cons h2 h4⟩
    rw [List.map_cons, List.mapM_cons, h3, ConDb.find_abs, h1]; rfl

theorem forall₂_right {α β : Type} {P : α → β → Prop} : ∀ {as : List α} {bs : List β}, List.Forall₂ P as bs →
    ∀ b ∈ bs, ∃ a ∈ as, P a b
  | _, _, .nil, _, hb => by simp at hb
  | _, _, .cons (a := a) h hs, b, hb => by
    rcases List.mem_cons.1 hb with rfl | hb
    · exact ⟨a, List.mem_cons_self .., h⟩
    · obtain ⟨a, ha, h'⟩ := forall₂_right hs b hb
      exact ⟨a, List.mem_cons_of_mem _ ha, h'⟩

/-- The line that is written for a derived clause is correct and gives the clause. -/
theorem Traced.derivedStep (h : Traced ord db₀ dead s) {c : Clause} {ids : List Nat} (hj : Justified cfg dead s c ids) :
    ∃ vids st con, ids.mapM s.tracer.mapId = some vids ∧ Tracer.derivedStep cfg c vids = some st ∧
      StepOk ord s.tracer.proof.db st ∧ (∀ ds gs, st ≠ .del ds gs) ∧
      st.apply s.tracer.proof.db = s.tracer.proof.db ++ [some con] ∧ con.Same (clauseCon c) := by
  obtain ⟨hne, hk, hd, hj⟩ := hj
  obtain ⟨vids, h1, h2⟩ := h.antecedents hk
  by_cases hr : cfg.rupHints
  · rw [if_pos hr] at hj
    refine ⟨vids, .rup (clauseCon c) (vids.map .abs), clauseCon c, h1, ?_, ?_, ?_, rfl, LbCon.Same.refl _⟩
    · unfold Tracer.derivedStep; rw [if_pos hr]
    · obtain ⟨hs, h3, h4⟩ := mapM_find h2
      refine ⟨hs, h3, rup_clause hd ?_⟩
      refine hj.conflicts ?_ fun a ha => assign_mem _ ha (by
        rw [List.map_map]; exact hd)
      intro e he
      obtain ⟨con, hc, hs'⟩ := forall₂_right h4 e he
      exact ⟨con, List.mem_cons_of_mem _ hc, fun ρ hh => (hs'.holds ρ).1 hh⟩
    · intro ds gs he; cases he
  · rw [if_neg hr] at hj
    obtain ⟨_, o, con, h3, h4, h5⟩ := Tracer.derivedOps_eval hj.2 hj.1 h2
    refine ⟨vids, .pol o, con, h1, ?_, ?_, ?_, ?_, h5⟩
    · unfold Tracer.derivedStep; rw [if_neg hr, h3]; rfl
    · show (o.eval _).isSome; rw [h4]; rfl
    · intro ds gs he; cases he
    · show _ ++ [o.eval _] = _; rw [h4]

/-- Adding a derived clause. -/
theorem Traced.addDerived (h : Traced ord db₀ dead s) {c : Clause} {red : Bool} {ids : List Nat}
    (hj : Justified cfg dead s c ids) :
    ∃ vid t con, s.tracer.addDerived cfg (s.clauses.length + 1) red c ids = some (vid, t) ∧
      t.mapId (s.clauses.length + 1) = some vid ∧ t.proof.db.get vid = some con ∧ con.Same (clauseCon c) ∧
      Traced ord db₀ dead ⟨s.clauses ++ [c], t⟩ := by
  obtain ⟨vids, st, con, h1, h2, h3, h4, h5, h6⟩ := h.derivedStep (ord := ord) hj
  have hne := hj.1
  let p1 := s.tracer.proof.write st
  let s1 : TracedSolver := ⟨s.clauses, { s.tracer with proof := p1 }⟩
  have ht1 : Traced ord db₀ dead s1 := h.write h3 (fun ds gs he => absurd he (h4 ds gs)) rfl rfl
  have hg : p1.db.get s.tracer.proof.nextId = some con := by
    show (st.apply s.tracer.proof.db).get (s.tracer.proof.db.length + 1) = _
    rw [h5]; exact ConDb.get_new _ _
  have hv : s.tracer.proof.nextId ∉ s.tracer.cmap := fun hm => by
    have := h.bound _ hm
    unfold Pf.nextId at this; omega
  let t2 : Tracer := { s.tracer with proof := p1, cmap := s.tracer.cmap ++ [s.tracer.proof.nextId] }
  have ht2 : Traced ord db₀ dead ⟨s.clauses ++ [c], t2⟩ := ht1.clause hg h6 hv rfl rfl
  have hlen : (s.tracer.cmap ++ [s.tracer.proof.nextId]).length = s.clauses.length + 1 := by simp [h.length]
  have hmap : ∀ p, ({ t2 with proof := p } : Tracer).mapId (s.clauses.length + 1) = some s.tracer.proof.nextId :=
    fun p => Tracer.mapId_new h.length
  have hcode : s.tracer.addDerived cfg (s.clauses.length + 1) red c ids = some (s.tracer.proof.nextId,
      { t2 with proof := if red then p1 else p1.write (.core [s.tracer.proof.nextId]) }) := by
    unfold Tracer.addDerived
    have he : ids.isEmpty = false := by cases ids <;> simp_all
    rw [he, Bool.and_false, if_neg (by simp), h1]
    show (do
      let step ← Tracer.derivedStep cfg c vids
      let (vid, proof) := s.tracer.proof.push step
      let cmap := s.tracer.cmap ++ [vid]
      if cmap.length ≠ s.clauses.length + 1 then none
      else
        let proof := if red then proof else proof.write (.core [vid])
        some (vid, ({ s.tracer with proof := proof, cmap := cmap } : Tracer))) = _
    rw [h2]
    show (if (s.tracer.cmap ++ [s.tracer.proof.nextId]).length ≠ s.clauses.length + 1 then none else _) = _
    rw [if_neg (by simp [h.length])]
  refine ⟨_, _, con, hcode, hmap _, ?_, h6, ?_⟩
  · cases red
    · exact hg
    · exact hg
  · cases red
    · exact ht2.write (st := .core [s.tracer.proof.nextId]) (fun i hi => by
        simp at hi; subst hi
        show (p1.db.get s.tracer.proof.nextId).isSome
        rw [hg]; rfl) (fun ds gs he => by cases he) rfl rfl
    · exact ht2

/-- One event. -/
theorem Traced.event (h : Traced ord db₀ dead s) {e : TraceEvent} (ha : Allowed ord cfg dead s e) :
    ∃ s', s.event cfg e = some s' ∧ Traced ord db₀ (deadAfter dead e) s' := by
  cases e with
  | cert c vid =>
    obtain ⟨⟨con, h1, h2⟩, h3⟩ := ha
    let t := s.tracer.addClause vid
    have ht : Traced ord db₀ dead ⟨s.clauses ++ [c], t⟩ := h.clause h1 h2 h3 rfl rfl
    have hmap : t.mapId (s.clauses.length + 1) = some vid := Tracer.mapId_new h.length
    have hcode : t.addOriginal cfg.debug (s.clauses.length + 1) false =
        some (if vid ≥ t.proof.firstProofId then { t with proof := t.proof.write (.core [vid]) } else t) := by
      unfold Tracer.addOriginal
      have hl : t.cmap.length = s.clauses.length + 1 := by
        show (s.tracer.cmap ++ [vid]).length = _; simp [h.length]
      rw [if_neg (by simp), hl, if_neg (by simp), hmap]
      show (if vid ≥ _ then some _ else some _) = _
      split <;> rfl
    refine ⟨⟨s.clauses ++ [c], if vid ≥ t.proof.firstProofId then { t with proof := t.proof.write (.core [vid]) } else t⟩,
      ?_, ?_⟩
    · show (do
        let t ← t.addOriginal cfg.debug (s.clauses.length + 1) false
        some (⟨s.clauses ++ [c], t⟩ : TracedSolver)) = _
      rw [hcode]; rfl
    · show Traced ord db₀ dead _
      split
      · exact ht.write (st := .core [vid]) (fun i hi => by
          simp at hi; subst hi
          show (s.tracer.proof.db.get i).isSome
          rw [h1]; rfl) (fun ds gs he => by cases he) rfl rfl
      · exact ht
  | plain => exact ha.elim
  | kernel st => exact ⟨_, rfl, h.write ha.1 ha.2 rfl rfl⟩
  | derived c red ids =>
    obtain ⟨vid, t, con, h1, h2, h3, h4, h5⟩ := h.addDerived (red := red) ha
    refine ⟨⟨s.clauses ++ [c], t⟩, ?_, h5⟩
    show (do
      let (_, t) ← s.tracer.addDerived cfg (s.clauses.length + 1) red c ids
      some (⟨s.clauses ++ [c], t⟩ : TracedSolver)) = _
    rw [h1]; rfl
  | assumptionClause c ids =>
    obtain ⟨vid, t, con, h1, h2, h3, h4, h5⟩ := h.addDerived (red := true) ha
    refine ⟨⟨s.clauses ++ [c], { t with coreId := some vid }⟩, ?_, ?_⟩
    · show (do
        let t ← s.tracer.addAssumptionClause cfg (s.clauses.length + 1) c ids
        some (⟨s.clauses ++ [c], t⟩ : TracedSolver)) = _
      unfold Tracer.addAssumptionClause
      rw [h1]; rfl
    · exact Traced.other (s := ⟨s.clauses ++ [c], t⟩) h5 rfl rfl
  | restore id => exact ⟨s, rfl, h⟩
  | delete id red =>
    cases red with
    | false => exact ⟨s, rfl, h⟩
    | true =>
      have hk : Known dead s id := ha rfl
      obtain ⟨vid, con, c, h1, h2, h3, h4⟩ := h.found id hk
      refine ⟨⟨s.clauses, { s.tracer with proof := s.tracer.proof.write (.del [vid] []) }⟩, ?_, ?_⟩
      · show (s.tracer.deleteClause id true).map (fun t => ({ s with tracer := t } : TracedSolver)) = _
        unfold Tracer.deleteClause
        rw [if_neg (by simp), h1]; rfl
      · refine ⟨h.length, h.nodup, ?_, ?_, ?_, ?_⟩
        · intro v hv
          exact (h.bound v hv).trans (ProofStep.length_le _ (.del [vid] []))
        · intro i hi
          obtain ⟨h5, h6, h7⟩ := hi
          have h7' : i ∉ id :: dead := h7
          rw [List.mem_cons, not_or] at h7'
          obtain ⟨v, con', c', h8, h9, h10, h11⟩ := h.found i ⟨h5, h6, h7'.2⟩
          refine ⟨v, con', c', h8, ?_, h10, h11⟩
          refine ProofStep.apply_get (st := .del [vid] []) h9 fun ids gs he => ?_
          cases he
          intro hm
          simp at hm; subst hm
          exact h7'.1 (Tracer.mapId_inj h.nodup h8 h1)
        · show ProofStep.apply s.tracer.proof.db (.del [vid] []) = (s.tracer.proof.steps ++ [ProofStep.del [vid] []]).foldl _ db₀
          rw [List.foldl_append, ← h.db]; rfl
        · refine accepted_append h.accepted ?_
          rw [← h.db]
          intro i hi
          simp at hi; subst hi
          rw [h2]; rfl
  | strengthen id =>
    obtain ⟨vid, con, c, h1, h2, h3, h4⟩ := h.found id ha
    refine ⟨⟨s.clauses, { s.tracer with proof := s.tracer.proof.write (.core [vid]) }⟩, ?_, ?_⟩
    · show (s.tracer.strengthen id).map (fun t => ({ s with tracer := t } : TracedSolver)) = _
      unfold Tracer.strengthen
      rw [h1]; rfl
    · exact h.write (st := .core [vid]) (fun i hi => by simp at hi; subst hi; rw [h2]; rfl)
        (fun ds gs he => by cases he) rfl rfl
  | weaken id => exact ⟨_, rfl, h.other rfl rfl⟩
  | status unsat id =>
    by_cases hid : id > 0
    · obtain ⟨hu, hk⟩ := ha hid
      obtain ⟨vid, con, c, h1, h2, h3, h4⟩ := h.found id hk
      refine ⟨⟨s.clauses, { s.tracer with conclusion := some vid }⟩, ?_, h.other rfl rfl⟩
      show (s.tracer.reportStatus cfg.debug unsat id).map (fun t => ({ s with tracer := t } : TracedSolver)) = _
      unfold Tracer.reportStatus
      rw [if_pos hid, h1, hu]
      simp
    · refine ⟨s, ?_, h⟩
      show (s.tracer.reportStatus cfg.debug unsat id).map (fun t => ({ s with tracer := t } : TracedSolver)) = _
      unfold Tracer.reportStatus
      rw [if_neg hid]; rfl
  | assume l => exact ⟨_, rfl, h.other rfl rfl⟩
  | resetAssumptions => exact ⟨_, rfl, h.other rfl rfl⟩

theorem Traced.run : ∀ {es : List TraceEvent} {dead : List Nat} {s : TracedSolver}, Traced ord db₀ dead s →
    AllowedAll ord cfg dead s es → ∃ s', s.run cfg es = some s' ∧ Traced ord db₀ (deadAfterAll dead es) s'
  | [], _, s, h, _ => ⟨s, rfl, h⟩
  | e :: es, _, s, h, ha => by
    obtain ⟨s', h1, h2⟩ := h.event ha.1
    obtain ⟨s'', h3, h4⟩ := h2.run (ha.2 s' h1)
    exact ⟨s'', by show (s.event cfg e).bind _ = _; rw [h1]; exact h3, h4⟩

end Spec

/-! ## Sequences of events -/

theorem TracedSolver.run_append (cfg : TracerCfg) : ∀ (es es' : List TraceEvent) (s : TracedSolver),
    s.run cfg (es ++ es') = (s.run cfg es).bind (TracedSolver.run cfg es')
  | [], _, _ => rfl
  | e :: es, es', s => by
    show (s.event cfg e).bind _ = ((s.event cfg e).bind _).bind _
    cases s.event cfg e with
    | none => rfl
    | some s' => exact run_append cfg es es' s'

theorem Tracer.addOriginal_frame {t t' : Tracer} {d : Bool} {id : Nat} {r : Bool} (h : t.addOriginal d id r = some t') :
    t'.coreId = t.coreId ∧ t'.cmap = t.cmap := by
  unfold addOriginal at h
  split at h
  · cases h; exact ⟨rfl, rfl⟩
  · split at h
    · cases h
    · cases hm : t.mapId id with
      | none => rw [hm] at h; cases h
      | some v =>
        rw [hm] at h
        change (if v ≥ t.proof.firstProofId then some _ else some _) = _ at h
        split at h <;> (cases h; exact ⟨rfl, rfl⟩)

theorem Tracer.addDerived_frame {cfg : TracerCfg} {t t' : Tracer} {id vid : Nat} {r : Bool} {c : Clause} {as : List Nat}
    (h : t.addDerived cfg id r c as = some (vid, t')) : t'.coreId = t.coreId ∧ t'.cmap = t.cmap ++ [vid] := by
  unfold addDerived at h
  split at h
  · cases h
  · obtain ⟨ids, _, h⟩ := Option.bind_eq_some_iff.1 h
    obtain ⟨st, _, h⟩ := Option.bind_eq_some_iff.1 h
    change (if _ then none else _) = _ at h
    split at h
    · cases h
    · cases h; exact ⟨rfl, rfl⟩

/-- What no event changes: the clauses and ids so far, and the id of the last core if there is no new one. -/
theorem event_frame {cfg : TracerCfg} {s s' : TracedSolver} {e : TraceEvent} (h : s.event cfg e = some s') :
    (∃ x, s'.clauses = s.clauses ++ x) ∧ (∃ x, s'.tracer.cmap = s.tracer.cmap ++ x) ∧
      ((∀ c as, e ≠ .assumptionClause c as) → s'.tracer.coreId = s.tracer.coreId) := by
  have hsame : ∀ {t : Tracer}, s' = ⟨s.clauses, t⟩ → t.cmap = s.tracer.cmap → t.coreId = s.tracer.coreId →
      (∃ x, s'.clauses = s.clauses ++ x) ∧ (∃ x, s'.tracer.cmap = s.tracer.cmap ++ x) ∧
      ((∀ c as, e ≠ .assumptionClause c as) → s'.tracer.coreId = s.tracer.coreId) := by
    intro t hs h1 h2
    subst hs
    exact ⟨⟨[], by simp⟩, ⟨[], by simpa using h1⟩, fun _ => h2⟩
  cases e with
  | cert c vid =>
    obtain ⟨t, h1, h2⟩ := Option.bind_eq_some_iff.1 h
    cases h2
    obtain ⟨h3, h4⟩ := Tracer.addOriginal_frame h1
    exact ⟨⟨_, rfl⟩, ⟨_, h4⟩, fun _ => h3⟩
  | plain c =>
    obtain ⟨t, h1, h2⟩ := Option.bind_eq_some_iff.1 h
    cases h2
    obtain ⟨h3, h4⟩ := Tracer.addOriginal_frame h1
    exact ⟨⟨_, rfl⟩, ⟨[], by simpa using h4⟩, fun _ => h3⟩
  | kernel st => cases h; exact hsame rfl rfl rfl
  | derived c r as =>
    obtain ⟨⟨vid, t⟩, h1, h2⟩ := Option.bind_eq_some_iff.1 h
    cases h2
    obtain ⟨h3, h4⟩ := Tracer.addDerived_frame h1
    exact ⟨⟨_, rfl⟩, ⟨_, h4⟩, fun _ => h3⟩
  | assumptionClause c as =>
    obtain ⟨t, h1, h2⟩ := Option.bind_eq_some_iff.1 h
    cases h2
    obtain ⟨⟨vid, t⟩, h5, h6⟩ := Option.bind_eq_some_iff.1 h1
    cases h6
    obtain ⟨h3, h4⟩ := Tracer.addDerived_frame h5
    exact ⟨⟨_, rfl⟩, ⟨_, h4⟩, fun he => absurd rfl (he c as)⟩
  | restore id => cases h; exact hsame rfl rfl rfl
  | delete id r =>
    obtain ⟨t, h1, h2⟩ := Option.map_eq_some_iff.1 h
    unfold Tracer.deleteClause at h1
    split at h1
    · cases h1; exact hsame h2.symm rfl rfl
    · obtain ⟨v, _, h1⟩ := Option.bind_eq_some_iff.1 h1
      cases h1; exact hsame h2.symm rfl rfl
  | strengthen id =>
    obtain ⟨t, h1, h2⟩ := Option.map_eq_some_iff.1 h
    obtain ⟨v, _, h1⟩ := Option.bind_eq_some_iff.1 h1
    cases h1; exact hsame h2.symm rfl rfl
  | weaken id => cases h; exact hsame rfl rfl rfl
  | status u id =>
    obtain ⟨t, h1, h2⟩ := Option.map_eq_some_iff.1 h
    unfold Tracer.reportStatus at h1
    split at h1
    · obtain ⟨v, _, h1⟩ := Option.bind_eq_some_iff.1 h1
      split at h1
      · cases h1
      · cases h1; exact hsame h2.symm rfl rfl
    · cases h1; exact hsame h2.symm rfl rfl
  | assume l => cases h; exact hsame rfl rfl rfl
  | resetAssumptions => cases h; exact hsame rfl rfl rfl

theorem run_coreId {cfg : TracerCfg} : ∀ {es : List TraceEvent} {s s' : TracedSolver}, s.run cfg es = some s' →
    (∀ e ∈ es, ∀ c as, e ≠ .assumptionClause c as) → s'.tracer.coreId = s.tracer.coreId
  | [], _, _, h, _ => by cases h; rfl
  | e :: es, s, s', h, he => by
    obtain ⟨s1, h1, h⟩ := Option.bind_eq_some_iff.1 h
    rw [run_coreId h fun x hx => he x (List.mem_cons_of_mem _ hx)]
    exact (event_frame h1).2.2 (he e (List.mem_cons_self ..))

theorem run_mapId {cfg : TracerCfg} : ∀ {es : List TraceEvent} {s s' : TracedSolver}, s.run cfg es = some s' →
    ∀ {i vid}, s.tracer.mapId i = some vid → s'.tracer.mapId i = some vid
  | [], _, _, h, _, _, hv => by cases h; exact hv
  | e :: es, s, s', h, i, vid, hv => by
    obtain ⟨s1, h1, h⟩ := Option.bind_eq_some_iff.1 h
    obtain ⟨x, hx⟩ := (event_frame h1).2.1
    exact run_mapId h (Tracer.mapId_append (t := s.tracer) (p := s1.tracer.proof) hx hv)

theorem allowedAll_append {ord : (AnyVar → Bool) → (AnyVar → Bool) → Prop} {cfg : TracerCfg} :
    ∀ {es es' : List TraceEvent} {dead : List Nat} {s s' : TracedSolver}, Spec.AllowedAll ord cfg dead s (es ++ es') →
      s.run cfg es = some s' → Spec.AllowedAll ord cfg dead s es ∧
        Spec.AllowedAll ord cfg (Spec.deadAfterAll dead es) s' es'
  | [], _, _, _, _, h, hr => by cases hr; exact ⟨trivial, h⟩
  | e :: es, es', dead, s, s', h, hr => by
    change (s.event cfg e).bind _ = _ at hr
    cases h1 : s.event cfg e with
    | none => rw [h1] at hr; cases hr
    | some s1 =>
      rw [h1] at hr
      obtain ⟨h2, h3⟩ := allowedAll_append (h.2 s1 h1) hr
      exact ⟨⟨h.1, fun s2 hs2 => by rw [h1] at hs2; cases hs2; exact h2⟩, h3⟩

theorem allowedAll_prefix {ord : (AnyVar → Bool) → (AnyVar → Bool) → Prop} {cfg : TracerCfg} :
    ∀ {es es' : List TraceEvent} {dead : List Nat} {s : TracedSolver}, Spec.AllowedAll ord cfg dead s (es ++ es') →
      Spec.AllowedAll ord cfg dead s es
  | [], _, _, _, _ => trivial
  | _ :: _, _, _, _, h => ⟨h.1, fun s2 hs2 => allowedAll_prefix (h.2 s2 hs2)⟩

theorem run_clauses {cfg : TracerCfg} : ∀ {es : List TraceEvent} {s s' : TracedSolver}, s.run cfg es = some s' →
    ∃ x, s'.clauses = s.clauses ++ x
  | [], s, _, h => by cases h; exact ⟨[], by simp⟩
  | e :: es, s, s', h => by
    obtain ⟨s1, h1, h⟩ := Option.bind_eq_some_iff.1 h
    obtain ⟨x, hx⟩ := (event_frame h1).1
    obtain ⟨y, hy⟩ := run_clauses h
    exact ⟨x ++ y, by rw [hy, hx, List.append_assoc]⟩

end Scuttle
