import Verif.SpecCertPre
import Verif.Props.Prepro
import Verif.Props.Tracer
import Verif.Proof.RefPb
import Verif.Proof.LinsuLog

/-!
# C59: the conversion to clauses with a proof
-/

namespace Scuttle

open Spec

/-! ## Lines of the input file -/

theorem PbCon.lines_length (c : PbCon) : c.lines.length = 1 + if c.rel = .eq then 1 else 0 := by
  unfold PbCon.lines
  cases c.rel <;> rfl

theorem lhs_terms (ts : List (Lit × Int)) (ρ : AnyVar → Bool) (b : Int) :
    (⟨ts.map fun t => (t.2, toAxm t.1), b⟩ : LbCon AnyVar).lhs ρ = pbSum (solverAsg ρ) ts := by
  unfold LbCon.lhs
  induction ts with
  | nil => rfl
  | cons t ts ih =>
    obtain ⟨⟨v, s⟩, w⟩ := t
    simp only [List.map_cons, List.sum_cons, pbSum] at ih ⊢
    rw [ih]
    congr 1
    simp only [toAxm, Axm.val, LitTrue, solverAsg]
    cases s <;> by_cases h : ρ (.solver v) = true <;> simp [h]

theorem lhs_neg_terms (ts : List (Lit × Int)) (ρ : AnyVar → Bool) (b : Int) :
    (⟨ts.map fun t => (-t.2, toAxm t.1), b⟩ : LbCon AnyVar).lhs ρ = -pbSum (solverAsg ρ) ts := by
  rw [← lhs_terms ts ρ b]
  unfold LbCon.lhs
  induction ts with
  | nil => rfl
  | cons t ts ih =>
    simp only [List.map_cons, List.sum_cons] at ih ⊢
    rw [ih]
    ring

/-- The lines of a constraint say the same as the constraint. -/
theorem PbCon.lines_holds (c : PbCon) (ρ : AnyVar → Bool) :
    (∀ d ∈ c.lines, d.Holds ρ) ↔ PbHolds (solverAsg ρ) c := by
  unfold PbCon.lines PbHolds
  cases c.rel <;> simp only [List.mem_cons, List.not_mem_nil, or_false, forall_eq_or_imp, forall_eq, LbCon.Holds,
    lhs_terms, lhs_neg_terms] <;> omega

theorem nConstraints_eq (cs : List PbCon) : nConstraints cs = (cs.flatMap PbCon.lines).length := by
  have key : ∀ (cs : List PbCon) (s : Nat),
      cs.foldl (fun s c => if c.rel = .eq then s + 2 else s + 1) s = s + (cs.flatMap PbCon.lines).length := by
    intro cs
    induction cs with
    | nil => intro s; simp
    | cons c cs ih =>
      intro s
      simp only [List.foldl_cons, List.flatMap_cons, List.length_append]
      rw [ih, PbCon.lines_length]
      split <;> omega
  unfold nConstraints
  rw [key]
  omega

theorem lines_mentions {c : PbCon} {d : LbCon AnyVar} (hd : d ∈ c.lines) {v : Nat} (h : Mentions d (.solver v)) :
    ∃ t ∈ c.terms, t.1.var = v := by
  obtain ⟨q, hq, he⟩ := h
  have key : ∀ f : Int → Int, q ∈ c.terms.map (fun t => (f t.2, toAxm t.1)) → ∃ t ∈ c.terms, t.1.var = v := by
    intro f hq
    obtain ⟨t, ht, rfl⟩ := List.mem_map.1 hq
    simp only [toAxm, AnyVar.solver.injEq] at he
    exact ⟨t, ht, he⟩
  unfold PbCon.lines at hd
  cases hr : c.rel <;> simp only [hr, List.mem_cons, List.not_mem_nil, or_false] at hd
  · subst hd; exact key id hq
  · subst hd; exact key (fun x => -x) hq
  · rcases hd with rfl | rfl
    · exact key id hq
    · exact key (fun x => -x) hq

/-! ## The loop over the constraints -/

theorem apply_foldl_length (new : List (ProofStep AnyVar)) (db : ConDb AnyVar) :
    db.length ≤ (new.foldl (fun db st => st.apply db) db).length := by
  induction new generalizing db with
  | nil => exact le_refl _
  | cons s new ih => exact (ProofStep.length_le db s).trans (ih _)

theorem Spec.OrderBelow.mono {ord : (AnyVar → Bool) → (AnyVar → Bool) → Prop} {n m : Nat} (h : OrderBelow ord n)
    (hm : n ≤ m) : OrderBelow ord m := fun a b hab => h a b fun v hv => hab v (by omega)

/-- What the collected clauses have: each has an id of a constraint that says the same, below `id` or from `N` on. -/
def ColOk (id N : Nat) (col : Collector) (pf : Pf AnyVar) : Prop :=
  (∀ q ∈ col, ∃ i con, q.2 = some i ∧ pf.db.get i = some con ∧ con.Same (clauseCon q.1) ∧ (i < id ∨ N ≤ i)) ∧
    (col.map Prod.snd).Nodup

variable {ord : (AnyVar → Bool) → (AnyVar → Bool) → Prop} {enc : PbCon → Nat → List Clause × Nat} {cert : CertPbEnc}

theorem encodeCert_spec (g : GoodPbEncoding enc) (gc : GoodCertEncoding enc cert) (N : Nat) :
    ∀ (cs : List PbCon) (id n : Nat) (col : Collector) (pf : Pf AnyVar),
    (∀ c ∈ cs, ∀ t ∈ c.terms, t.1.var < n) → UnusedFrom n pf → OrderBelow ord n →
    (∀ k d, (cs.flatMap PbCon.lines)[k]? = some d → pf.db.get (id + k) = some d) →
    id + (cs.flatMap PbCon.lines).length = N → N ≤ pf.nextId → ColOk id N col pf →
    ∃ (col' : Collector) (pf' : Pf AnyVar),
      encodeCert cert cs id n col pf = (col', (encodeConstraints enc cs n).2, pf') ∧
      col'.map Prod.fst = col.map Prod.fst ++ (encodeConstraints enc cs n).1 ∧ ColOk N N col' pf' ∧
      (∃ new, pf'.steps = pf.steps ++ new ∧ Accepted ord pf.db new ∧
        pf'.db = new.foldl (fun db st => st.apply db) pf.db) ∧
      pf'.nInput = pf.nInput ∧ UnusedFrom (encodeConstraints enc cs n).2 pf' := by
  intro cs
  induction cs with
  | nil =>
    intro id n col pf _ hu _ _ hN _ hcol
    simp only [List.flatMap_nil, List.length_nil, Nat.add_zero] at hN
    subst hN
    exact ⟨col, pf, rfl, by simp [encodeConstraints], hcol, ⟨[], by simp, trivial, rfl⟩, rfl, hu⟩
  | cons c cs ih =>
    intro id n col pf hv hu ho hid hN hnx hcol
    have hc : HasId pf c id := fun k d hk => by
      refine hid k d ?_
      rw [List.flatMap_cons, List.getElem?_append_left (List.getElem?_eq_some_iff.1 hk).1, hk]
    have r := gc ord c id n pf (hv c (List.mem_cons_self ..)) hu hc ho
    generalize hr : cert c id n pf = r0 at r
    obtain ⟨cls, n', pf'⟩ := r0
    have hn' : n' = (enc c n).2 := r.next
    have hmono := g.mono c n
    have hlen := c.lines_length
    simp only [List.flatMap_cons, List.length_append] at hN
    obtain ⟨new, hs1, hs2, hs3⟩ := r.lines
    simp only at hs1 hs3
    have hnx' : pf.nextId ≤ pf'.nextId := by
      have h := apply_foldl_length new pf.db
      rw [← hs3] at h
      simp only [Pf.nextId]
      omega
    have hcol' : ColOk (id + (1 + if c.rel = .eq then 1 else 0)) N (col ++ cls.map fun q => (q.1, some q.2)) pf' := by
      rw [← hlen]
      refine ⟨fun q hq => ?_, ?_⟩
      · rcases List.mem_append.1 hq with hq | hq
        · obtain ⟨i, con, h1, h2, h3, h4⟩ := hcol.1 q hq
          refine ⟨i, con, h1, r.keeps i con h2 ?_, h3, ?_⟩ <;> omega
        · obtain ⟨q', hq', rfl⟩ := List.mem_map.1 hq
          obtain ⟨con, h1, h2⟩ := r.found q' hq'
          refine ⟨q'.2, con, rfl, h1, h2, ?_⟩
          rcases r.own q' hq' with h | h
          · exact .inl h.2
          · exact .inr (hnx.trans h)
      · rw [List.map_append, List.map_map]
        refine List.nodup_append.2 ⟨hcol.2, ?_, ?_⟩
        · have := r.nodup
          rw [show (Prod.snd ∘ fun q : Clause × Nat => (q.1, some q.2)) = some ∘ Prod.snd from rfl, ← List.map_map]
          exact this.map (Option.some_injective _)
        · rintro a ha b hb rfl
          obtain ⟨q, hq, rfl⟩ := List.mem_map.1 ha
          obtain ⟨q', hq', he⟩ := List.mem_map.1 hb
          obtain ⟨i, con, h1, h2, -, h4⟩ := hcol.1 q hq
          rw [h1] at he
          simp only [Function.comp_apply, Option.some.injEq] at he
          have h5 := (ConDb.get_lt h2).2
          rcases r.own q' hq' with h | h
          · omega
          · simp only [Pf.nextId] at h; omega
    obtain ⟨col'', pf'', e1, e2, e3, ⟨new', t1, t2, t3⟩, e5, e6⟩ := ih (id + (1 + if c.rel = .eq then 1 else 0)) n' _ pf'
      (fun c' hc' t ht => by have := hv c' (List.mem_cons_of_mem _ hc') t ht; omega) r.unused (ho.mono (by omega))
      (fun k d hk => by
        have h1 := hid (c.lines.length + k) d (by
          rw [List.flatMap_cons, List.getElem?_append_right (by omega), Nat.add_sub_cancel_left, hk])
        rw [← hlen, Nat.add_assoc]
        exact r.keeps _ d h1 (.inr (by omega)))
      (by omega) (by omega) hcol'
    refine ⟨col'', pf'', ?_, ?_, e3, ⟨new ++ new', by rw [t1, hs1, List.append_assoc],
      accepted_append' hs2 (by rw [← hs3]; exact t2), by rw [List.foldl_append, ← hs3, t3]⟩, e5.trans r.input, ?_⟩
    · have he : encodeCert cert (c :: cs) id n col pf = encodeCert cert cs (id + (1 + if c.rel = .eq then 1 else 0)) n'
          (col ++ cls.map fun q => (q.1, some q.2)) pf' := by simp only [encodeCert, hr]
      rw [he, e1, hn']
      rfl
    · rw [e2, List.map_append, List.map_map, List.append_assoc]
      have := r.clauses
      simp only at this
      simp only [encodeConstraints, ← this, hn']
      rfl
    · simpa only [encodeConstraints, hn'] using e6

/-! ## Start of a solver -/

theorem unwrapIds_some : ∀ {col : Collector}, (∀ q ∈ col, ∃ i, q.2 = some i) →
    ∃ cls, unwrapIds col = some cls ∧ col = cls.map fun q => (q.1, some q.2)
  | [], _ => ⟨[], rfl, rfl⟩
  | (c, o) :: col, h => by
    obtain ⟨i, hi⟩ := h _ (List.mem_cons_self ..)
    obtain ⟨cls, h1, h2⟩ := unwrapIds_some fun q hq => h q (List.mem_cons_of_mem _ hq)
    simp only at hi
    subst hi
    exact ⟨(c, i) :: cls, by simp [unwrapIds, h1], by simp [h2]⟩

/-- Clauses that have their constraints in the proof can be added one after the other. -/
theorem cert_events_allowed {cfg : TracerCfg} : ∀ (cls : List (Clause × Nat)) (s : TracedSolver),
    (∀ q ∈ cls, ∃ con, s.tracer.proof.db.get q.2 = some con ∧ con.Same (clauseCon q.1)) →
    (∀ q ∈ cls, q.2 ∉ s.tracer.cmap) → (cls.map Prod.snd).Nodup →
    AllowedAll ord cfg [] s (cls.map fun q => .cert q.1 q.2) := by
  intro cls
  induction cls with
  | nil => intro s _ _ _; trivial
  | cons q cls ih =>
    intro s hf hm hd
    refine ⟨⟨hf q (List.mem_cons_self ..), hm q (List.mem_cons_self ..)⟩, fun s' hs' => ?_⟩
    rw [List.map_cons, List.nodup_cons] at hd
    have hs : s'.tracer.proof.db = s.tracer.proof.db ∧ s'.tracer.cmap = s.tracer.cmap ++ [q.2] := by
      simp only [TracedSolver.event, Option.bind_eq_bind, Option.bind_eq_some_iff, Option.some.injEq] at hs'
      obtain ⟨t, ht, rfl⟩ := hs'
      unfold Tracer.addOriginal at ht
      rw [if_neg (by simp)] at ht
      split at ht
      · cases ht
      · simp only [Option.bind_eq_bind, Option.bind_eq_some_iff] at ht
        obtain ⟨vid, -, ht⟩ := ht
        split at ht <;> (cases ht; exact ⟨rfl, rfl⟩)
    refine ih s' (fun q' hq' => ?_) (fun q' hq' => ?_) hd.2
    · rw [hs.1]; exact hf q' (List.mem_cons_of_mem _ hq')
    · rw [hs.2, List.mem_append, List.mem_singleton, not_or]
      exact ⟨hm q' (List.mem_cons_of_mem _ hq'), fun he => hd.1 (he ▸ List.mem_map_of_mem hq')⟩

theorem run_cert_clauses {cfg : TracerCfg} : ∀ (cls : List (Clause × Nat)) (s s' : TracedSolver),
    TracedSolver.run cfg (cls.map fun q => .cert q.1 q.2) s = some s' →
    s'.clauses = s.clauses ++ cls.map Prod.fst ∧ s'.tracer.cmap = s.tracer.cmap ++ cls.map Prod.snd := by
  intro cls
  induction cls with
  | nil => rintro s s' ⟨⟩; simp
  | cons q cls ih =>
    intro s s' h
    simp only [List.map_cons, TracedSolver.run, Option.bind_eq_some_iff] at h
    obtain ⟨s₁, h1, h2⟩ := h
    obtain ⟨h3, h4⟩ := ih s₁ s' h2
    simp only [TracedSolver.event, Option.bind_eq_bind, Option.bind_eq_some_iff, Option.some.injEq] at h1
    obtain ⟨t, ht, rfl⟩ := h1
    have : t.cmap = s.tracer.cmap ++ [q.2] := by
      unfold Tracer.addOriginal at ht
      rw [if_neg (by simp)] at ht
      split at ht
      · cases ht
      · simp only [Option.bind_eq_bind, Option.bind_eq_some_iff] at ht
        obtain ⟨vid, -, ht⟩ := ht
        split at ht <;> (cases ht; rfl)
    simp only at h3 h4
    rw [this] at h4
    exact ⟨by rw [h3]; simp, by rw [h4]; simp⟩

section

variable {p : Parsed} {debug : Bool} {inst : Instance}

theorem objValue_agree {o : Objective} {s t : Asg} (h : ∀ l ∈ objLits o, s l.var = t l.var) :
    objValue o s = objValue o t := by
  cases o with
  | weighted off lits i lb =>
    simp only [objValue]
    rw [linear_congr fun q hq => h q.1 (List.mem_map_of_mem hq)]
  | unweighted off w lits i lb =>
    simp only [objValue]
    rw [linear_congr (t := t) fun q hq => ?_]
    obtain ⟨l, hl, rfl⟩ := List.mem_map.1 hq
    exact h l hl
  | constant => rfl

/-- The objectives of an instance only use variables that are there before the constraints are encoded. -/
theorem paretoOrder_below (hp : ParsedOK p) {objs : List Objective} {st : Relax}
    (h : processObjectives debug p.objs 0 ⟨p.constraints, [], p.vm⟩ = some (objs, st)) :
    OrderBelow (ParetoOrder objs) st.vm.nextVar := by
  have hnx := (processObjectives_spec (RInv.init hp) hp.softs h).1.next
  have he : ∀ (cs : List PbCon) n, (encodeConstraints refPbEnc cs n).2 = n := by
    intro cs
    induction cs with
    | nil => intro n; rfl
    | cons c cs ih => intro n; exact ih n
  have hc : ∃ inst, toClausal debug refPbEnc p = some inst ∧ inst.objs = objs ∧ inst.vm.nextVar = st.vm.nextVar := by
    unfold toClausal
    rw [h]
    simp only [he, VarManager.markMaxEncVar]
    rw [if_neg (by omega)]
    exact ⟨_, rfl, rfl, rfl⟩
  obtain ⟨inst, h1, rfl, h3⟩ := hc
  have hw := (toClausal_wellFormed hp refPbEnc_good h1).1
  intro a b hab
  have : (inst.objs.map fun o => objValue o (solverAsg a)) = inst.objs.map fun o => objValue o (solverAsg b) := by
    refine List.map_congr_left fun o ho => objValue_agree fun l hl => ?_
    have h4 := hw.objs o ho l hl
    have h5 := hw.enc
    exact hab _ (by omega)
  unfold ParetoOrder
  rw [this]
  exact List.forall₂_same.2 fun _ _ => le_refl _

/-- The conversion with a proof gives the same clauses, objectives and variables as without. Each clause has its own
constraint in the proof, which is about the input file with the relaxed soft clauses. -/
theorem toClausalProof_spec (hp : ParsedOK p) (g : GoodPbEncoding enc) (gc : GoodCertEncoding enc cert)
    (h : toClausal debug enc p = some inst) : ∃ (file : List PbCon) (new : List (ProofStep AnyVar)) (pf : Pf AnyVar)
      (iinst : IdInstance) (cls : List (Clause × Nat)),
      toClausalProof debug enc cert true p = some (some pf, iinst) ∧ iinst.plain = inst ∧
      p.constraints <+: file ∧ (∀ s, (problem inst).Feasible s → ∀ c ∈ file, PbHolds s c) ∧
      unwrapIds iinst.clauses = some cls ∧ cls.map Prod.fst = inst.clauses ∧
      pf.nInput = (file.flatMap PbCon.lines).length ∧ pf.steps = new ∧
      Accepted (ParetoOrder inst.objs) ((file.flatMap PbCon.lines).map some) new ∧
      pf.db = new.foldl (fun db st => st.apply db) ((file.flatMap PbCon.lines).map some) ∧
      (∀ q ∈ cls, ∃ con, pf.db.get q.2 = some con ∧ con.Same (clauseCon q.1)) ∧ (cls.map Prod.snd).Nodup := by
  obtain ⟨st₀, n₀, -⟩ := toClausal_data hp g h
  have hfeas : ∀ objs st, processObjectives debug p.objs 0 ⟨p.constraints, [], p.vm⟩ = some (objs, st) →
      (∀ c ∈ st.constrs, ∀ q ∈ c.terms, q.1.var < st.vm.nextVar) ∧ p.constraints <+: st.constrs ∧
      p.vm.maxOrigVar < st.vm.nextVar := by
    intro objs st hpo
    obtain ⟨hi, -, -⟩ := processObjectives_spec (RInv.init hp) hp.softs hpo
    refine ⟨fun c hc q hq => ?_, ⟨_, hi.cons.symm⟩, hi.next⟩
    have hnx := hi.next
    rw [hi.cons] at hc
    rcases List.mem_append.1 hc with hc | hc
    · have := hp.cons c hc q hq; omega
    · obtain ⟨b, hb, rfl⟩ := List.mem_map.1 hc
      obtain ⟨l, hl, rfl⟩ := List.mem_map.1 hq
      simp only [List.mem_append, List.mem_singleton] at hl
      rcases hl with hl | rfl
      · have := hi.keys b hb l hl; simp only; omega
      · exact (hi.blit b hb).2.2
  unfold toClausal at h
  unfold toClausalProof
  split at h
  · simp at h
  · next objs st hpo =>
    obtain ⟨hv, hpre, hnx⟩ := hfeas objs st hpo
    have hord := paretoOrder_below hp hpo
    have hu : UnusedFrom st.vm.nextVar (initProof st.constrs (nConstraints st.constrs)) := by
      intro d hd v hm
      simp only [initProof, Spec.live, List.filterMap_map, List.mem_filterMap, Function.comp_apply, id_eq,
        Option.some.injEq, exists_eq_right, List.mem_flatMap] at hd
      obtain ⟨c, hc, hd⟩ := hd
      obtain ⟨t, ht, rfl⟩ := lines_mentions hd hm
      exact hv c hc t ht
    obtain ⟨col, pf, e1, e2, e3, ⟨new, t1, t2, t3⟩, e5, -⟩ := encodeCert_spec (ord := ParetoOrder objs) g gc
      (1 + (st.constrs.flatMap PbCon.lines).length) st.constrs 1 st.vm.nextVar []
      (initProof st.constrs (nConstraints st.constrs)) hv hu hord
      (fun k d hk => by simp [initProof, ConDb.get, hk, Nat.add_comm 1 k]) rfl
      (by simp [Pf.nextId, initProof, Nat.add_comm]) ⟨by simp, by simp⟩
    obtain ⟨-, -, hsound, -⟩ := encodeConstraints_spec g st.constrs st.vm.nextVar hv
    obtain ⟨cls, u1, u2⟩ := unwrapIds_some fun q hq => ⟨_, (e3.1 q hq).choose_spec.choose_spec.1⟩
    simp only [VarManager.markMaxEncVar, Option.map_eq_some_iff] at h
    obtain ⟨vm, hvm, rfl⟩ := h
    rw [hpo]
    simp only [if_true, e1, VarManager.markMaxEncVar, hvm, Option.map_some]
    refine ⟨st.constrs, new, pf, _, cls, rfl, ?_, hpre, hsound, u1, ?_, ?_, ?_, t2, t3, ?_, ?_⟩
    · simp only [IdInstance.plain, e2, List.map_nil, List.nil_append]
    · rw [u2] at e2
      simpa [List.map_map, Function.comp_def] using e2
    · rw [e5, ← nConstraints_eq]; rfl
    · rw [t1]; rfl
    · intro q hq
      obtain ⟨i, con, h1, h2, h3, -⟩ := e3.1 (q.1, some q.2) (by rw [u2]; exact List.mem_map.2 ⟨q, hq, rfl⟩)
      cases h1
      exact ⟨con, h2, h3⟩
    · have := e3.2
      rw [u2, List.map_map] at this
      exact List.Nodup.of_map some (by rw [List.map_map]; exact this)

/-- **C59.** With a proof, a parsed instance is converted to the same instance as without. Setting up the solver does not
panic, in debug and release builds: each clause has an id. Each clause of the solver then has its own constraint in the
proof that says the same, each line of the proof is correct with respect to the constraints of the file for the checker,
which start with those of the instance, and the program counts the constraints of the file in the same way as the checker. -/
theorem cert_start (hp : ParsedOK p) (g : GoodPbEncoding enc) (gc : GoodCertEncoding enc cert) (cfg : TracerCfg)
    (h : toClausal cfg.debug enc p = some inst) : ∃ (file : List PbCon) (iinst : IdInstance) (s : TracedSolver),
      setUpRun cfg enc cert true false p = .cert iinst s ∧ iinst.plain = inst ∧ s.clauses = inst.clauses ∧
      p.constraints <+: file ∧ (∀ t, ParsedFeasible p t → ∃ t', SameOrig inst t t' ∧ ∀ c ∈ file, PbHolds t' c) ∧
      s.tracer.proof.nInput = (file.flatMap PbCon.lines).length ∧
      Traced (ParetoOrder inst.objs) ((file.flatMap PbCon.lines).map some) [] s := by
  obtain ⟨file, new, pf, iinst, cls, h1, h2, h3, h4, h5, h6, h7, h8, h9, h10, h11, h12⟩ := toClausalProof_spec hp g gc h
  have hall := cert_events_allowed (ord := ParetoOrder inst.objs) (cfg := cfg) cls (.start pf) h11
    (fun _ _ => List.not_mem_nil) h12
  have ht : Traced (ParetoOrder inst.objs) ((file.flatMap PbCon.lines).map some) [] (.start pf) :=
    ⟨rfl, List.nodup_nil, fun v hv => (List.not_mem_nil hv).elim,
      fun id hid => absurd (show id ≤ 0 from hid.2.1) (by have := hid.1; omega), h8 ▸ h10, h8 ▸ h9⟩
  obtain ⟨s, hs, hts⟩ := ht.run hall
  have hdead : deadAfterAll [] (cls.map fun q => TraceEvent.cert q.1 q.2) = [] := by
    unfold deadAfterAll
    clear * -
    induction cls with
    | nil => rfl
    | cons q cls ih => exact ih
  rw [hdead] at hts
  have hin : ∀ (es : List TraceEvent) (s s' : TracedSolver), s.run cfg es = some s' →
      (∀ e ∈ es, ∃ c v, e = .cert c v) → s'.tracer.proof.nInput = s.tracer.proof.nInput := by
    intro es
    induction es with
    | nil => rintro s s' ⟨⟩ _; rfl
    | cons e es ih =>
      intro s s' hr he
      obtain ⟨c, v, rfl⟩ := he e (List.mem_cons_self ..)
      simp only [TracedSolver.run, Option.bind_eq_some_iff] at hr
      obtain ⟨s₁, hr1, hr2⟩ := hr
      rw [ih s₁ s' hr2 fun e he' => he e (List.mem_cons_of_mem _ he')]
      simp only [TracedSolver.event, Option.bind_eq_bind, Option.bind_eq_some_iff, Option.some.injEq] at hr1
      obtain ⟨t, ht, rfl⟩ := hr1
      unfold Tracer.addOriginal at ht
      rw [if_neg (by simp)] at ht
      split at ht
      · cases ht
      · simp only [Option.bind_eq_bind, Option.bind_eq_some_iff] at ht
        obtain ⟨vid, -, ht⟩ := ht
        split at ht <;> (cases ht; rfl)
  refine ⟨file, iinst, s, ?_, h2, ?_, h3, fun t htf => ?_, ?_, hts⟩
  · unfold setUpRun
    rw [h1]
    simp only [Bool.false_eq_true, if_false, startCert, h5]
    rw [show (⟨[], .new pf⟩ : TracedSolver) = .start pf from rfl, hs]
  · rw [(run_cert_clauses cls _ _ hs).1, h6]; rfl
  · obtain ⟨t', a1, a2, -⟩ := toClausal_complete hp g h htf
    exact ⟨t', a1, h4 t' a2⟩
  · rw [hin _ _ _ hs fun e he => ?_, ← h7]
    · rfl
    · obtain ⟨q, -, rfl⟩ := List.mem_map.1 he
      exact ⟨_, _, rfl⟩

/-- **C59.** Each constraint of the parsed instance is the constraint of the proof with the id that the checker gives it:
the lines of the constraints before it, and one more. -/
theorem input_ids {file : List PbCon} {pre : List PbCon} {c : PbCon} {post : List PbCon} (h : file = pre ++ c :: post)
    (n : Nat) : HasId (initProof file n) c (1 + nConstraints pre) := by
  intro k d hk
  subst h
  rw [nConstraints_eq]
  simp only [initProof, ConDb.get]
  rw [if_neg (by omega), List.flatMap_append, List.flatMap_cons, List.getElem?_map,
    show 1 + (pre.flatMap PbCon.lines).length + k - 1 = (pre.flatMap PbCon.lines).length + k by omega,
    List.getElem?_append_right (by omega), Nat.add_sub_cancel_left,
    List.getElem?_append_left (List.getElem?_eq_some_iff.1 hk).1, hk]
  rfl

/-- **C59.** A run with proof and reindexing is refused. -/
theorem proof_reindex_refused (hp : ParsedOK p) (g : GoodPbEncoding enc) (gc : GoodCertEncoding enc cert)
    (cfg : TracerCfg) (h : toClausal cfg.debug enc p = some inst) : setUpRun cfg enc cert true true p = .failed := by
  obtain ⟨_, _, _, _, _, h1, -⟩ := toClausalProof_spec hp g gc h
  unfold setUpRun
  rw [h1]
  rfl

/-- **C59.** Without proof the clauses get no ids and the instance is that of `to_clausal`. -/
theorem setUpRun_plain (cfg : TracerCfg) (h : toClausal cfg.debug enc p = some inst) :
    setUpRun cfg enc cert false false p = .plain inst := by
  unfold toClausal at h
  unfold setUpRun toClausalProof
  split at h
  · simp at h
  · next objs st hpo =>
    simp only [Option.map_eq_some_iff] at h
    obtain ⟨vm, hvm, rfl⟩ := h
    rw [hpo]
    simp [hvm, IdInstance.plain, Function.comp_def]

end

/-! ## A certified encoder and examples -/

/-- Derives clauses one after the other by unit propagation (reference for `/repo/core/src/prepro.rs:280-285`). -/
def refCertLoop (hints : List CId) : List Clause → Pf AnyVar → List (Clause × Nat) × Pf AnyVar
  | [], pf => ([], pf)
  | cl :: cls, pf =>
    let r := refCertLoop hints cls (pf.write (.rup (clauseCon cl) hints))
    ((cl, pf.nextId) :: r.1, r.2)

/-- The clauses of `refPbEnc` with their derivations (reference for `/repo/core/src/prepro.rs:280-285`). -/
def refCert : CertPbEnc := fun c id n pf =>
  let r := refCertLoop ((List.range c.lines.length).map fun k => .abs (id + k)) (refPbEnc c n).1 pf
  (r.1, n, r.2)

theorem refPbEnc_rup {c : PbCon} {n : Nat} {cl : Clause} (h : cl ∈ (refPbEnc c n).1) : Rup c.lines (clauseCon cl) := by
  simp only [refPbEnc, List.mem_map, List.mem_filter, mem_allChoices, Bool.not_eq_true', decide_eq_false_iff_not] at h
  obtain ⟨ch, ⟨hv, hn⟩, rfl⟩ := h
  have hn' := hn
  rw [show asgOf ch = solverAsg (fun v => match v with | .solver v => asgOf ch v | .proof _ => false) from rfl,
    ← PbCon.lines_holds] at hn'
  push Not at hn'
  obtain ⟨d, hd, hnd⟩ := hn'
  refine rup_direct hd fun ρ hρ hh => hnd ?_
  refine (LbCon.holds_congr fun v hm => ?_).1 hh
  cases v with
  | proof k =>
    exfalso
    obtain ⟨q, hq, he⟩ := hm
    unfold PbCon.lines at hd
    cases hr : c.rel <;> simp only [hr, List.mem_cons, List.not_mem_nil, or_false] at hd
    · subst hd; obtain ⟨t, -, rfl⟩ := List.mem_map.1 hq; simp [toAxm] at he
    · subst hd; obtain ⟨t, -, rfl⟩ := List.mem_map.1 hq; simp [toAxm] at he
    · rcases hd with rfl | rfl
      · obtain ⟨t, -, rfl⟩ := List.mem_map.1 hq; simp [toAxm] at he
      · obtain ⟨t, -, rfl⟩ := List.mem_map.1 hq; simp [toAxm] at he
  | solver v =>
    obtain ⟨t, ht, rfl⟩ := lines_mentions hd hm
    show solverAsg ρ t.1.var = asgOf ch t.1.var
    refine (asgOf_agree (fun l hl => ?_) (by rw [hv]; exact List.mem_map.2 ⟨t, ht, rfl⟩)).symm
    have h1 := hρ (toAxm l.not) (List.mem_map_of_mem (List.mem_map_of_mem hl))
    obtain ⟨v, b⟩ := l
    simp only [toAxm, Lit.not, Axm.val] at h1
    simp only [LitTrue, solverAsg]
    by_contra hne
    simp [hne] at h1

theorem refCertLoop_spec {ord : (AnyVar → Bool) → (AnyVar → Bool) → Prop} {hints : List CId} {ds : List (LbCon AnyVar)} :
    ∀ (cls : List Clause) (pf : Pf AnyVar), (∀ x, hints.mapM (pf.db ++ x).find = some ds) →
    (∀ cl ∈ cls, Rup ds (clauseCon cl)) →
    (refCertLoop hints cls pf).1.map Prod.fst = cls ∧
    (refCertLoop hints cls pf).1.map Prod.snd = (List.range cls.length).map (fun k => pf.nextId + k) ∧
    (refCertLoop hints cls pf).2.db = pf.db ++ cls.map (fun cl => some (clauseCon cl)) ∧
    (∃ new, (refCertLoop hints cls pf).2.steps = pf.steps ++ new ∧ Accepted ord pf.db new ∧
      (refCertLoop hints cls pf).2.db = new.foldl (fun db st => st.apply db) pf.db) ∧
    (refCertLoop hints cls pf).2.nInput = pf.nInput := by
  intro cls
  induction cls with
  | nil => intro pf _ _; exact ⟨rfl, rfl, by simp [refCertLoop], ⟨[], by simp [refCertLoop], trivial, rfl⟩, rfl⟩
  | cons cl cls ih =>
    intro pf hh hr
    have hdb : (pf.write (.rup (clauseCon cl) hints)).db = pf.db ++ [some (clauseCon cl)] := rfl
    obtain ⟨h1, h2, h3, ⟨new, h4, h5, h6⟩, h7⟩ := ih (pf.write (.rup (clauseCon cl) hints))
      (fun x => by rw [hdb, List.append_assoc]; exact hh _) fun c hc => hr c (List.mem_cons_of_mem _ hc)
    refine ⟨by simp only [refCertLoop, List.map_cons, h1], ?_, ?_, ⟨.rup (clauseCon cl) hints :: new, ?_, ⟨?_, h5⟩, h6⟩, h7⟩
    · simp only [refCertLoop, List.map_cons, h2, List.length_cons, List.range_succ_eq_map, List.map_map]
      refine congrArg₂ _ rfl (List.map_congr_left fun k _ => ?_)
      simp only [Pf.nextId, hdb, List.length_append, List.length_singleton, Function.comp_apply]
      omega
    · simp only [refCertLoop, h3, hdb, List.map_cons, List.append_assoc, List.singleton_append]
    · simp only [refCertLoop, h4]
      simp [Pf.write]
    · exact ⟨ds, by simpa using hh [], hr cl (List.mem_cons_self ..)⟩

/-- The contract of certified encoders can be met, for all constraints. -/
theorem refCert_good : GoodCertEncoding refPbEnc refCert := by
  intro ord c id n pf hv hu hid _
  have hh : ∀ x, ((List.range c.lines.length).map fun k => CId.abs (id + k)).mapM (pf.db ++ x).find = some c.lines := by
    intro x
    have key : ∀ (ds : List (LbCon AnyVar)) (ids : List CId), ids.length = ds.length →
        (∀ (k : Nat) i d, ids[k]? = some i → ds[k]? = some d → ConDb.find (pf.db ++ x) i = some d) →
        ids.mapM (ConDb.find (pf.db ++ x)) = some ds := by
      intro ds
      induction ds with
      | nil => intro ids hl _; rw [List.length_eq_zero_iff.1 hl]; rfl
      | cons d ds ih =>
        intro ids hl hf
        cases ids with
        | nil => cases hl
        | cons i ids =>
          rw [List.mapM_cons, hf 0 i d rfl rfl, ih ids (by simpa using hl) fun k i d h1 h2 => hf (k + 1) i d h1 h2]
          rfl
    refine key _ _ (by simp) fun k i d h1 h2 => ?_
    have hk := (List.getElem?_eq_some_iff.1 h2).1
    simp only [List.getElem?_map, List.getElem?_range hk, Option.map_some, Option.some.injEq] at h1
    subst h1
    exact ConDb.get_append x (hid k d h2)
  obtain ⟨h1, h2, h3, h4, h5⟩ := refCertLoop_spec (ord := ord) (refPbEnc c n).1 pf hh fun cl hcl => refPbEnc_rup hcl
  generalize hr : refCertLoop _ _ pf = r at h1 h2 h3 h4 h5
  have hc : refCert c id n pf = (r.1, n, r.2) := by unfold refCert; rw [hr]
  rw [hc]
  have hmem : ∀ (k : Nat) (q : Clause × Nat), r.1[k]? = some q →
      q.2 = pf.nextId + k ∧ (refPbEnc c n).1[k]? = some q.1 := by
    intro k q hk
    have e1 : (r.1.map Prod.fst)[k]? = some q.1 := by rw [List.getElem?_map, hk]; rfl
    have e2 : (r.1.map Prod.snd)[k]? = some q.2 := by rw [List.getElem?_map, hk]; rfl
    rw [h1] at e1
    rw [h2, List.getElem?_map, List.getElem?_range (List.getElem?_eq_some_iff.1 e1).1] at e2
    simp only [Option.map_some, Option.some.injEq] at e2
    exact ⟨e2.symm, e1⟩
  refine ⟨h1, rfl, h4, h5, fun i d hd _ => ?_, fun q hq => ?_, fun q hq => ?_, ?_, ?_⟩
  · simp only [h3]
    exact ConDb.get_append _ hd
  · obtain ⟨k, hk⟩ := List.getElem?_of_mem hq
    obtain ⟨e1, e2⟩ := hmem k q hk
    refine ⟨clauseCon q.1, ?_, fun ρ => rfl⟩
    simp only [h3, e1, ConDb.get, Pf.nextId]
    rw [if_neg (by omega), List.getElem?_append_right (by omega),
      show pf.db.length + 1 + k - 1 - pf.db.length = k by omega, List.getElem?_map, e2]
    rfl
  · obtain ⟨k, hk⟩ := List.getElem?_of_mem hq
    exact .inr (by rw [(hmem k q hk).1]; omega)
  · simp only [h2]
    exact (List.nodup_range).map fun a b hab => by omega
  · intro d hd v hm
    simp only [h3, Spec.live, List.filterMap_append, List.mem_append] at hd
    rcases hd with hd | hd
    · exact hu d hd v hm
    · simp only [List.filterMap_map, List.mem_filterMap, Function.comp_apply, id_eq, Option.some.injEq] at hd
      obtain ⟨cl, hcl, rfl⟩ := hd
      obtain ⟨q, hq, he⟩ := hm
      simp only [clauseCon, LbCon.clause, List.map_map, List.mem_map, Function.comp_apply] at hq
      obtain ⟨l, hl, rfl⟩ := hq
      simp only [toAxm, AnyVar.solver.injEq] at he
      rw [← he]
      exact refPbEnc_good.vars c n hv cl hcl l hl

/-- The hypotheses on the conversion with a proof are met by the example, which has an equality and a soft clause that is
relaxed. -/
example : ∃ inst, ParsedOK Example.parsed ∧ GoodPbEncoding refPbEnc ∧ GoodCertEncoding refPbEnc refCert ∧
    toClausal false refPbEnc Example.parsed = some inst :=
  let ⟨inst, h⟩ := toClausal_total (debug := false) Example.parsedOK refPbEnc_good (by simp)
  ⟨inst, Example.parsedOK, refPbEnc_good, refCert_good, h⟩

/-- In the example the file has five lines, of which the equality is two, the ids of the clauses follow after these. -/
example : ((toClausalProof false refPbEnc refCert true Example.parsed).map fun r =>
    (r.1.map fun pf => (pf.nInput, pf.steps.length, pf.db.length), r.2.clauses.map Prod.snd)) =
    some (some (5, 8, 13), (List.range 8).map fun i => some (6 + i)) := by decide +kernel

end Scuttle
