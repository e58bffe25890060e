import Verif.Proof.Tracer

/-!
# The proof tracer

Properties C33 and C34: clauses of the SAT solver and constraints of the proof fit together, and the lines the tracer writes
are correct.
-/

namespace Scuttle

/-! ## Meaning of correct proofs -/

section Meaning

variable {V : Type} [DecidableEq V]

/-- C34: a constraint found by reverse unit propagation follows from the hints. -/
theorem rup_implied {hs : List (LbCon V)} {c : LbCon V} (h : Spec.Rup hs c) {ρ : V → Bool}
    (hh : ∀ d ∈ hs, d.Holds ρ) : c.Holds ρ := h.sound hh

/-- C34: what any derivation gives follows from the constraints in the proof. -/
theorem pol_implied {db : ConDb V} {o : Ops} {c : LbCon V} (h : o.eval db = some c) {ρ : V → Bool}
    (hd : ∀ d ∈ Spec.live db, d.Holds ρ) : c.Holds ρ :=
  Ops.eval_sound (fun i d hi => hd d (by
    have hget : ∀ i, db.get i = some d → d ∈ Spec.live db := by
      intro i hi
      unfold ConDb.get at hi
      split at hi
      · cases hi
      · cases h1 : db[i - 1]? with
        | none => rw [h1] at hi; cases hi
        | some y =>
          rw [h1] at hi
          change y = some d at hi
          unfold Spec.live
          exact List.mem_filterMap.2 ⟨y, List.mem_of_getElem? h1, hi⟩
    cases i with
    | abs i => exact hget i hi
    | last n =>
      unfold ConDb.find at hi
      simp only at hi
      split at hi
      · cases hi
      · split at hi
        · exact hget _ hi
        · cases hi)) h

/-- What a proof with correct lines says: each assignment that satisfies the input has one that is at least as good and
either satisfies all constraints at the end or is one of the solutions excluded on the way. With a contradiction at the end,
the excluded solutions therefore cover all. -/
theorem accepted_covers {ord : (V → Bool) → (V → Bool) → Prop} (hr : ∀ ρ, ord ρ ρ)
    (ht : ∀ a b c, ord a b → ord b c → ord a c) :
    ∀ {steps : List (ProofStep V)} {db : ConDb V}, Spec.Accepted ord db steps → ∀ ρ, (∀ d ∈ Spec.live db, d.Holds ρ) →
      ∃ ρ', ord ρ' ρ ∧ ((∀ d ∈ Spec.live (steps.foldl (fun db st => st.apply db) db), d.Holds ρ') ∨
        ∃ ls full, ProofStep.solx ls full ∈ steps ∧ ∀ a ∈ ls, ρ' a.var = !a.neg)
  | [], _, _, ρ, hh => ⟨ρ, hr ρ, Or.inl hh⟩
  | st :: steps, db, ha, ρ, hh => by
    have hadd : ∀ (c : LbCon V) (ρ : V → Bool), (∀ d ∈ Spec.live db, d.Holds ρ) → c.Holds ρ →
        ∀ d ∈ Spec.live (db ++ [some c]), d.Holds ρ := by
      intro c ρ hh hc d hd
      unfold Spec.live at hd hh
      rw [List.filterMap_append, List.mem_append] at hd
      rcases hd with hd | hd
      · exact hh d hd
      · simp at hd; subst hd; exact hc
    have key : ∀ ρ₁, ord ρ₁ ρ → (∀ d ∈ Spec.live (st.apply db), d.Holds ρ₁) → ∃ ρ', ord ρ' ρ ∧
        ((∀ d ∈ Spec.live ((st :: steps).foldl (fun db st => st.apply db) db), d.Holds ρ') ∨
          ∃ ls full, ProofStep.solx ls full ∈ st :: steps ∧ ∀ a ∈ ls, ρ' a.var = !a.neg) := by
      intro ρ₁ ho h1
      obtain ⟨ρ', ho', h2⟩ := accepted_covers hr ht ha.2 ρ₁ h1
      refine ⟨ρ', ht _ _ _ ho' ho, ?_⟩
      rcases h2 with h2 | ⟨ls, full, h2, h3⟩
      · exact Or.inl h2
      · exact Or.inr ⟨ls, full, List.mem_cons_of_mem _ h2, h3⟩
    have hok := ha.1
    cases st with
    | pol o =>
      refine key ρ (hr ρ) ?_
      cases he : o.eval db with
      | none => rw [Spec.StepOk, he] at hok; cases hok
      | some c =>
        show ∀ d ∈ Spec.live (db ++ [o.eval db]), d.Holds ρ
        rw [he]
        exact hadd c ρ hh (pol_implied he hh)
    | rup c hints =>
      obtain ⟨hs, h1, h2⟩ := hok
      refine key ρ (hr ρ) (hadd c ρ hh (h2.sound ?_))
      have hall : ∀ {ids : List CId} {hs : List (LbCon V)}, ids.mapM db.find = some hs → ∀ d ∈ hs, d.Holds ρ := by
        intro ids
        induction ids with
        | nil => intro hs h d hd; simp at h; subst h; cases hd
        | cons i ids ih =>
          intro hs h d hd
          rw [List.mapM_cons] at h
          cases hi : db.find i with
          | none => rw [hi] at h; cases h
          | some x =>
            cases hi' : ids.mapM db.find with
            | none => rw [hi, hi'] at h; cases h
            | some xs =>
              rw [hi, hi'] at h
              cases h
              rcases List.mem_cons.1 hd with rfl | hd
              · exact pol_implied (o := .id i) hi hh
              · exact ih hi' d hd
      exact hall h1
    | red c ω gs =>
      by_cases hc : c.Holds ρ
      · exact key ρ (hr ρ) (hadd c ρ hh hc)
      · obtain ⟨h1, h2, h3⟩ := hok ρ hh hc
        exact key _ h3 (hadd c _ h1 h2)
    | solx ls full =>
      by_cases hc : (LbCon.clause (full.map Axm.not)).Holds ρ
      · exact key ρ (hr ρ) (hadd _ ρ hh hc)
      · refine ⟨ρ, hr ρ, Or.inr ⟨ls, full, List.mem_cons_self .., fun a ha => ?_⟩⟩
        rw [LbCon.holds_clause] at hc
        push Not at hc
        have := hc a.not (List.mem_map.2 ⟨a, hok.1 a ha, rfl⟩)
        change ρ a.var ≠ !(!a.neg) at this
        cases h1 : ρ a.var <;> cases h2 : a.neg <;> simp_all
    | core ids => exact key ρ (hr ρ) hh
    | del ids gs =>
      refine key ρ (hr ρ) fun d hd => hh d ?_
      unfold Spec.live at hd ⊢
      obtain ⟨x, hx, hx'⟩ := List.mem_filterMap.1 hd
      change x ∈ db.delete ids at hx
      unfold ConDb.delete at hx
      obtain ⟨i, hi, he⟩ := List.mem_mapIdx.1 hx
      refine List.mem_filterMap.2 ⟨db[i], List.getElem_mem hi, ?_⟩
      split at he
      · subst he; cases hx'
      · rw [he]; exact hx'

end Meaning

/-! ## The tracer -/

/-- Start of the solver, with a proof that has constraints for the input. -/
def TracedSolver.start (p : Pf AnyVar) : TracedSolver := ⟨[], .new p⟩

/-- C33: for every sequence of events in which each clause is added with its constraint, and in which the solver refers only
to clauses it has, the tracer never panics, each clause has its own constraint in the proof that says the same, and each
line of the proof is correct. This holds in debug and release builds, with and without hints. -/
theorem tracer_traced {ord : (AnyVar → Bool) → (AnyVar → Bool) → Prop} {cfg : TracerCfg} {p : Pf AnyVar}
    {es : List TraceEvent} (hp : p.steps = []) (h : Spec.AllowedAll ord cfg [] (.start p) es) :
    ∃ s, (TracedSolver.start p).run cfg es = some s ∧ Spec.Traced ord p.db (Spec.deadAfterAll [] es) s := by
  refine Spec.Traced.run ?_ h
  refine ⟨rfl, List.nodup_nil, fun v hv => (List.not_mem_nil hv).elim, fun id hid => ?_, ?_, ?_⟩
  · obtain ⟨h1, h2, _⟩ := hid
    exact absurd (show id ≤ 0 from h2) (by omega)
  · show p.db = p.steps.foldl _ p.db
    rw [hp]; rfl
  · show Spec.Accepted ord p.db p.steps
    rw [hp]; trivial

/-- C33: after the solver has reported a core, the id of the last core is the id of a constraint that says the same as the
core, until the solver reports another core or removes the clause. -/
theorem tracer_core {ord : (AnyVar → Bool) → (AnyVar → Bool) → Prop} {cfg : TracerCfg} {p : Pf AnyVar}
    {es es' : List TraceEvent} {c : Clause} {as : List Nat} (hp : p.steps = [])
    (h : Spec.AllowedAll ord cfg [] (.start p) (es ++ .assumptionClause c as :: es'))
    (hc : ∀ e ∈ es', ∀ d bs, e ≠ .assumptionClause d bs) {s₁ s : TracedSolver}
    (h₁ : (TracedSolver.start p).run cfg es = some s₁)
    (hs : (TracedSolver.start p).run cfg (es ++ .assumptionClause c as :: es') = some s)
    (hd : s₁.clauses.length + 1 ∉ Spec.deadAfterAll [] (es ++ .assumptionClause c as :: es')) :
    ∃ vid con, s.tracer.coreId = some vid ∧ s.tracer.proof.db.get vid = some con ∧ con.Same (clauseCon c) := by
  obtain ⟨s', hs', ht⟩ := tracer_traced hp h
  rw [hs] at hs'; cases hs'
  obtain ⟨h2, h3⟩ := allowedAll_append h h₁
  obtain ⟨s1', h1', ht1⟩ := tracer_traced hp h2
  rw [h₁] at h1'; cases h1'
  obtain ⟨vid, t, con, h4, h5, h6, h7, h8⟩ := ht1.addDerived (red := true) h3.1
  have hev : s₁.event cfg (.assumptionClause c as) = some ⟨s₁.clauses ++ [c], { t with coreId := some vid }⟩ := by
    show (do
      let t ← s₁.tracer.addAssumptionClause cfg (s₁.clauses.length + 1) c as
      some (⟨s₁.clauses ++ [c], t⟩ : TracedSolver)) = _
    unfold Tracer.addAssumptionClause
    rw [h4]; rfl
  have hrun : (⟨s₁.clauses ++ [c], { t with coreId := some vid }⟩ : TracedSolver).run cfg es' = some s := by
    rw [TracedSolver.run_append, h₁] at hs
    change (s₁.event cfg (.assumptionClause c as)).bind _ = _ at hs
    rw [hev] at hs; exact hs
  have hcore : s.tracer.coreId = some vid := run_coreId hrun hc
  obtain ⟨x, hx⟩ := run_clauses hrun
  have hlen : s₁.clauses.length < s.clauses.length := by rw [hx]; simp
  obtain ⟨vid', con', c', h9, h10, h11, h12⟩ := ht.found (s₁.clauses.length + 1) ⟨by omega, by omega, hd⟩
  have hc' : c' = c := by
    rw [hx] at h11
    simp at h11
    exact h11.symm
  subst hc'
  refine ⟨vid', con', ?_, h10, h12⟩
  have := run_mapId hrun h5
  rw [this] at h9
  cases h9
  exact hcore

/-- C33 fails for clauses that are added without a constraint: whatever happened before, the tracer panics, in debug and in
release builds. This is how solutions are enumerated (`/repo/core/src/algs.rs:728-730`,
`/repo/core/src/algs/pminimal.rs:671`). -/
theorem tracer_plain_panics {ord : (AnyVar → Bool) → (AnyVar → Bool) → Prop} {cfg : TracerCfg} {p : Pf AnyVar}
    {es : List TraceEvent} (hp : p.steps = []) (h : Spec.AllowedAll ord cfg [] (.start p) es) (c : Clause)
    (es' : List TraceEvent) : (TracedSolver.start p).run cfg (es ++ .plain c :: es') = none := by
  obtain ⟨s, hs, ht⟩ := tracer_traced hp h
  rw [TracedSolver.run_append, hs]
  show (s.event cfg (.plain c)).bind _ = none
  have : s.tracer.addOriginal cfg.debug (s.clauses.length + 1) false = none := by
    unfold Tracer.addOriginal
    rw [if_neg (by simp)]
    split
    · rfl
    · have : s.tracer.mapId (s.clauses.length + 1) = none := by
        unfold Tracer.mapId
        rw [if_neg (by omega)]
        simp [ht.length]
      rw [this]; rfl
  have he : s.event cfg (.plain c) = none := by
    show (do
      let t ← s.tracer.addOriginal cfg.debug (s.clauses.length + 1) false
      some (⟨s.clauses ++ [c], t⟩ : TracedSolver)) = _
    rw [this]; rfl
  rw [he]; rfl

/-! ## Derivations of clauses -/

/-- C34: without hints, the derivation that is written for a clause gives exactly this clause, if it results from resolving
the antecedents one after the other from the last to the first. -/
theorem derived_exact {db : ConDb AnyVar} {cs : List (List (Axm AnyVar))} {r : List (Axm AnyVar)} {ids : List Nat}
    (h : Spec.Derives cs r) (hn : ∀ c ∈ cs, c.Nodup)
    (hd : List.Forall₂ (fun id c => ∃ con, db.get id = some con ∧ con.Same (.clause c)) ids cs) :
    ∃ o con, Tracer.derivedOps ids = some o ∧ o.eval db = some con ∧ con.Same (.clause r) :=
  (Tracer.derivedOps_eval h hn hd).2

/-- C34: whatever the antecedents are, the derivation that is written gives a constraint that follows from them. -/
theorem derived_implied {db : ConDb AnyVar} {ids : List Nat} {o : Ops} {con : LbCon AnyVar}
    (ho : Tracer.derivedOps ids = some o) (he : o.eval db = some con) {ρ : AnyVar → Bool}
    (hd : ∀ i ∈ ids, ∀ d, db.get i = some d → d.Holds ρ) : con.Holds ρ := by
  have key : ∀ (ids : List Nat) (o : Ops), (∀ con, o.eval db = some con → con.Holds ρ) →
      (∀ i ∈ ids, ∀ d, db.get i = some d → d.Holds ρ) → ∀ con,
      (ids.foldl (fun der id => Ops.saturate (.add der (.id (.abs id)))) o).eval db = some con → con.Holds ρ := by
    intro ids
    induction ids with
    | nil => intro o h _ con he; exact h con he
    | cons i ids ih =>
      intro o h hi con he
      refine ih _ ?_ (fun j hj => hi j (List.mem_cons_of_mem _ hj)) con he
      intro con' he'
      simp only [Ops.eval, Option.map_eq_some_iff, Option.bind_eq_bind, Option.bind_eq_some_iff, Option.some.injEq] at he'
      obtain ⟨x, ⟨a, ha, b, hb, rfl⟩, rfl⟩ := he'
      exact LbCon.holds_saturate (LbCon.holds_add (h a ha) (hi i (List.mem_cons_self ..) b hb))
  unfold Tracer.derivedOps at ho
  cases hr : ids.reverse with
  | nil => rw [hr] at ho; cases ho
  | cons f rest =>
    rw [hr] at ho
    cases ho
    have hmem : ∀ i ∈ f :: rest, i ∈ ids := fun i hi => by rw [← hr] at hi; exact List.mem_reverse.1 hi
    exact key rest (.id (.abs f)) (fun con he => hd f (hmem f (List.mem_cons_self ..)) con he)
      (fun i hi => hd i (hmem i (List.mem_cons_of_mem _ hi))) con he

namespace Example

/-- Three clauses over the variables 0 and 1 in the proof. -/
def tracedProof : Pf AnyVar :=
  ⟨[some (clauseCon [⟨0, false⟩, ⟨1, false⟩]), some (clauseCon [⟨0, true⟩, ⟨1, false⟩]), some (clauseCon [⟨1, true⟩])], [], 3, 0⟩

/-- The clauses are added, a unit is derived and later removed, and under assumptions the empty clause is found. -/
def tracedEvents : List TraceEvent :=
  [.cert [⟨0, false⟩, ⟨1, false⟩] 1, .cert [⟨0, true⟩, ⟨1, false⟩] 2, .derived [⟨1, false⟩] true [1, 2],
    .assume ⟨1, true⟩, .assumptionClause [⟨1, false⟩] [3], .resetAssumptions, .delete 3 true, .cert [⟨1, true⟩] 3,
    .derived [] false [4, 5], .status true 6]

theorem tracedEvents_allowed : Spec.AllowedAll (fun a b => a = b) ⟨true, true⟩ [] (.start tracedProof) tracedEvents := by
  have next : ∀ {α : Type} {x : Option α} {a : α} {P : α → Prop}, x = some a → P a → ∀ s', x = some s' → P s' := by
    intro α x a P h hp s' hs
    rw [h] at hs; cases hs; exact hp
  refine ⟨⟨⟨_, rfl, LbCon.Same.refl _⟩, by decide⟩, next rfl ?_⟩
  refine ⟨⟨⟨_, rfl, LbCon.Same.refl _⟩, by decide⟩, next rfl ?_⟩
  refine ⟨⟨by decide, by unfold Spec.Known; decide, by decide, ?_⟩, next rfl ?_⟩
  · exact .unit ⟨.solver 0, false⟩ (by decide) (by decide) (.conflict (by decide))
  refine ⟨trivial, next rfl ?_⟩
  refine ⟨⟨by decide, by unfold Spec.Known; decide, by decide, ?_⟩, next rfl ?_⟩
  · exact .conflict (by decide)
  refine ⟨trivial, next rfl ?_⟩
  refine ⟨fun _ => by unfold Spec.Known; decide, next rfl ?_⟩
  refine ⟨⟨⟨_, rfl, LbCon.Same.refl _⟩, by decide⟩, next rfl ?_⟩
  refine ⟨⟨by decide, by unfold Spec.Known; decide, by decide, ?_⟩, next rfl ?_⟩
  · exact .unit ⟨.solver 1, false⟩ (by decide) (by decide) (.conflict (by decide))
  exact ⟨fun _ => by unfold Spec.Known; decide, next rfl trivial⟩

example : ∃ s, (TracedSolver.start tracedProof).run ⟨true, true⟩ tracedEvents = some s ∧
    Spec.Traced (fun a b => a = b) tracedProof.db [3] s := tracer_traced rfl tracedEvents_allowed

/-- The core after the events up to the report of the core. -/
example {s₁ s : TracedSolver} (h₁ : (TracedSolver.start tracedProof).run ⟨true, true⟩ (tracedEvents.take 4) = some s₁)
    (hs : (TracedSolver.start tracedProof).run ⟨true, true⟩ tracedEvents = some s) :
    ∃ vid con, s.tracer.coreId = some vid ∧ s.tracer.proof.db.get vid = some con ∧
      con.Same (clauseCon [⟨1, false⟩]) := by
  refine tracer_core (es := tracedEvents.take 4) (es' := tracedEvents.drop 5) (as := [3]) rfl tracedEvents_allowed
    (by intro e he d bs h; subst h; revert he; simp [tracedEvents]) h₁ hs ?_
  obtain rfl : _ = s₁ := Option.some.inj h₁
  decide

example (c : Clause) : (TracedSolver.start tracedProof).run ⟨false, true⟩ [.plain c] = none :=
  tracer_plain_panics (ord := fun a b => a = b) (es := []) rfl trivial c []

/-- The same derived clause without hints. -/
example : ∃ o con, Tracer.derivedOps [1, 2] = some o ∧ o.eval tracedProof.db = some con ∧
    con.Same (clauseCon [⟨1, false⟩]) :=
  derived_exact (cs := [[toAxm ⟨0, false⟩, toAxm ⟨1, false⟩], [toAxm ⟨0, true⟩, toAxm ⟨1, false⟩]])
    (.resolve ⟨.solver 0, true⟩ (.last _) ⟨by decide, by decide, by decide, fun l => by
      simp [toAxm, Axm.not]
      constructor
      · rintro rfl; simp
      · rintro (⟨rfl | rfl, h⟩ | ⟨rfl | rfl, h⟩) <;> simp_all⟩)
    (by decide)
    (.cons ⟨_, rfl, LbCon.Same.refl _⟩ (.cons ⟨_, rfl, LbCon.Same.refl _⟩ .nil))

/-- Four clauses that are unsatisfiable without the second one. -/
def unusedProof : ConDb AnyVar :=
  [some (clauseCon [⟨0, false⟩]), some (clauseCon [⟨0, true⟩, ⟨1, false⟩]), some (clauseCon [⟨0, true⟩, ⟨2, false⟩]),
    some (clauseCon [⟨0, true⟩, ⟨2, true⟩])]

end Example

/-- C34 without hints needs more than unit propagation: the four antecedents lead to a conflict by unit propagation in their
order, so the empty clause follows, but as the second one is not used, the derivation that is written gives a constraint
that can be satisfied. -/
theorem derived_unused_counterexample :
    Spec.Propagates [] ([[⟨0, false⟩], [⟨0, true⟩, ⟨1, false⟩], [⟨0, true⟩, ⟨2, false⟩], [⟨0, true⟩, ⟨2, true⟩]].map
      fun c : Clause => c.map toAxm) ∧
    ∃ o con ρ, Tracer.derivedOps [1, 2, 3, 4] = some o ∧ o.eval Example.unusedProof = some con ∧ con.Holds ρ := by
  refine ⟨?_, _, _, fun v => decide (v = .solver 1), rfl, rfl, ?_⟩
  · exact .unit ⟨.solver 0, false⟩ (by decide) (by decide) (.unit ⟨.solver 1, false⟩ (by decide) (by decide)
      (.unit ⟨.solver 2, false⟩ (by decide) (by decide) (.conflict (by decide))))
  · decide +kernel

namespace Example

/-- A proof over one variable that excludes one solution and ends with a contradiction. -/
def coverSteps : List (ProofStep Nat) :=
  [.solx [⟨0, false⟩] [⟨0, false⟩], .pol (.add (.id (.abs 1)) (.id (.last 1)))]

example : ∀ ρ : Nat → Bool, ρ 0 = true → ∃ ls full, ProofStep.solx ls full ∈ coverSteps ∧ ∀ a ∈ ls, ρ a.var = !a.neg := by
  intro ρ hρ
  obtain ⟨ρ', h1, h2⟩ := accepted_covers (ord := fun a b => a = b) (fun _ => rfl) (fun _ _ _ h h' => h.trans h')
    (steps := coverSteps) (db := [some (.clause [⟨0, false⟩])])
    ⟨⟨by decide, fun _ => true, by decide, by
        intro d hd
        simp [Spec.live] at hd
        subst hd
        exact (LbCon.holds_clause _ _).2 ⟨_, List.mem_cons_self .., rfl⟩⟩, by
      show Option.isSome _ = true
      decide, trivial⟩ ρ (by
        intro d hd
        simp [Spec.live] at hd
        subst hd
        exact (LbCon.holds_clause _ _).2 ⟨_, List.mem_cons_self .., hρ⟩)
  subst h1
  rcases h2 with h2 | h2
  · have := h2 ⟨[(1, ⟨0, false⟩), (1, ⟨0, true⟩)], 2⟩ (by decide)
    rw [LbCon.holds_iff, LbCon.slack_def] at this
    simp [Axm.val, hρ] at this
  · exact h2

end Example

end Scuttle
