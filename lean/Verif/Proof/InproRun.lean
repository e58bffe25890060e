import Verif.Proof.InproEnc

/-!
# Core boosting with inprocessing
-/

set_option linter.unusedSectionVars false

namespace Scuttle

open Spec

variable {P C D : Type} [UbEnc P] [UbEnc C] [LawfulUbEnc P] [LawfulUbEnc C] [TotDb D] [LawfulTotDb D] [InproDb D]
  [LawfulInproDb D] [MergeEnc P C D] [LawfulMergeEnc P C D]
variable {env : Env} {s s' : Slv P C} {inst : Instance} {opts : KernelOptions} {bcg : Assignment → Clause} {n : Nat}

open TotSem (Node Inner cnt Sound Exact Below Inputs Base IsOut)

/-- The soft clauses that are left for an objective can be encoded. -/
def PartOK (pb : Pb) (o : Objective) (p : Softs × Int) (r : Reform × Coll D) : Prop :=
  p.2 = 0 ∧ ∃ d K L Dr, p.1 = L.map softOf ∧ Items pb.n0 d r.1.inactives.iter r.1.refs r.2 K ∧
    MergeOK pb o d r.1.inactives.iter r.1.refs r.1.offset ∧ (L ++ Dr).Perm K ∧ (∀ t, pb.Sol t → Zero r.2 t Dr) ∧ L ≠ []

theorem wp_inproEncs {pb : Pb} {Q : List (ObjEnc P C) → Slv P C → Prop} (i : Nat) (ps : List (Softs × Int))
    (rs : List (Reform × Coll D)) (os : List Objective) (h1 : rs.length = ps.length) (h2 : os.length = ps.length)
    (h : ∀ (j : Nat) p r o, ps[j]? = some p → rs[j]? = some r → os[j]? = some o → PartOK pb o p r) (hio : IoInv env n s.io)
    (hQ : ∀ es s', Same s s' → s'.k = s.k → IoInv env n s'.io → es.length = ps.length →
      (∀ (j : Nat) e r o, es[j]? = some e → rs[j]? = some r → os[j]? = some o → GoodEnc pb o r.2.db r.1.offset e) → Q es s') :
    wp env (inproEncs i ps rs) Q (fun _ _ => True) s := by
  induction ps generalizing i rs os s Q with
  | nil =>
    cases rs with
    | cons r rs => simp at h1
    | nil =>
      unfold inproEncs
      rw [wp_pure]
      exact hQ [] s (Same.refl _) rfl hio rfl (by simp)
  | cons p ps ih =>
    cases rs with
    | nil => simp at h1
    | cons r rs =>
    cases os with
    | nil => simp at h2
    | cons o os =>
    obtain ⟨p1, p2⟩ := p
    obtain ⟨r1, r2⟩ := r
    obtain ⟨h3, d, K, L, Dr, h4, h5, h6, h7, h8, h9⟩ := h 0 _ _ _ rfl rfl rfl
    simp only at h3 h4 h5 h6 h8
    subst h3
    subst h4
    unfold inproEncs
    rw [wp_bind]
    refine wp_dbg (by simp) ?_
    have hne : ¬ L.map softOf = [] := by simpa using h9
    rw [if_neg hne, wp_bind]
    refine wp_inproEnc h5 h6 h7 h8 h9 hio fun e s1 a1 a2 a3 a4 => ?_
    rw [wp_bind]
    refine ih (i + 1) rs os (by simpa using h1) (by simpa using h2)
      (fun j p r o b1 b2 b3 => h (j + 1) p r o (by simpa using b1) (by simpa using b2) (by simpa using b3)) a3
      fun es s2 c1 c2 c3 c4 c5 => ?_
    rw [wp_pure]
    refine hQ _ s2 (a1.trans c1) (c2.trans a2) c3 (by simp [c4]) fun j e' r o' b1 b2 b3 => ?_
    cases j with
    | zero =>
      simp only [List.getElem?_cons_zero, Option.some.injEq] at b1 b2 b3
      subst b1 b2 b3
      exact a4
    | succ j => exact c5 j e' r o' (by simpa using b1) (by simpa using b2) (by simpa using b3)

/-- Literal and weight of a soft clause. -/
def unSoft (p : Clause × Nat) : Lit × Nat := ((p.1.headD (Lit.pos 0)).not, p.2)

theorem unSoft_softOf (p : Lit × Nat) : unSoft (softOf p) = p := by
  simp [unSoft, softOf, Lit.not_not]

theorem softOf_unSoft {K : List (Lit × Nat)} {S : Softs} (h : ∀ p ∈ S, p ∈ K.map softOf) : S = (S.map unSoft).map softOf := by
  rw [List.map_map]
  have : ∀ p ∈ S, (softOf ∘ unSoft) p = p := by
    intro p hp
    obtain ⟨q, -, rfl⟩ := List.mem_map.1 (h p hp)
    rw [Function.comp_apply, unSoft_softOf]
  rw [List.map_congr_left (g := id) this, List.map_id]

theorem satisfies_soft (m : Asg) (p : Lit × Nat) : Satisfies m [(softOf p).1] ↔ boolV m p.1 = 0 := by
  unfold Satisfies softOf boolV
  by_cases hl : p.1.eval m = true <;> simp [hl, ← Lit.eval_iff, Lit.eval_not]

theorem wsum_eq_zero {f : Lit → Nat} {K : List (Lit × Nat)} (h : wsum f K = 0) {l : Lit} {w : Nat} (hl : (l, w) ∈ K)
    (hw : 0 < w) : f l = 0 := by
  induction K with
  | nil => simp at hl
  | cons p K ih =>
    simp only [wsum, List.map_cons, List.sum_cons] at h ih
    rcases List.mem_cons.1 hl with rfl | hl
    · have h1 : w * f l = 0 := by simp only at h; omega
      rcases Nat.mul_eq_zero.1 h1 with h1 | h1
      · omega
      · exact h1
    · exact ih (by omega) hl

theorem Collected.partOK {s0 : Slv P C} {res : List (Reform × D)} {F F' : List Clause} {cs : List (Coll D)} {R : List (Softs × Int)}
    (hb : BInv inst opts bcg env s0 res s) (h : Collected inst opts bcg s res F n cs)
    (hkm : KeepsModels F (cs.map Coll.softs) F' R) (hv : Varies inst) (j : Nat) (p : Softs × Int) (r : Reform × Coll D) (o : Objective)
    (hp : R[j]? = some p) (hr : ((res.map Prod.fst).zip cs)[j]? = some r) (ho : s.k.objs[j]? = some o) :
    PartOK (pbAt inst opts bcg s) o p r := by
  have hfs : ∀ t, (problem inst).Feasible t ↔ (pbAt inst opts bcg s).Sol t := fun t => feasible_iff (opts := opts) (bcg := bcg) t
  rw [List.getElem?_zip_eq_some] at hr
  obtain ⟨hr1, hr2⟩ := hr
  obtain ⟨p0, hp0, ha⟩ := forall2_getElem h.after hr2
  rw [List.getElem?_map, hp0] at hr1
  simp only [Option.map_some, Option.some.injEq] at hr1
  obtain ⟨r1, c⟩ := r
  simp only at hr1 hr2 ha
  subst hr1
  have hcm : c ∈ cs := List.mem_of_getElem? hr2
  obtain ⟨K, hK⟩ := ha.items
  obtain ⟨Si, hSi, held, failed, q1, q2, q3, q4⟩ := forall2_getElem hkm.softs hp
  rw [List.getElem?_map, hr2] at hSi
  simp only [Option.map_some, Option.some.injEq] at hSi
  subst hSi
  rw [hK.softs] at q1
  have hent := hb.each j p0.1 p0.2 o hp0 ho
  -- values of the items in an extension
  have hval : ∀ t, (pbAt inst opts bcg s).Sol t → ∃ m, Satisfies m F ∧ ∀ q ∈ K, litV c.db c.outs t q.1 = boolV m q.1 := by
    intro t ht
    obtain ⟨m, h1, h2, h3⟩ := h.ext t ht
    refine ⟨m, (satisfies_iff _ _).2 h2, fun q hq => ?_⟩
    rw [hK.agree ha.inputs h1 q hq, hK.eq (ha.sound m h2) (h3 c hcm) q hq]
  -- no soft clause fails in all models
  obtain ⟨o1, ho1, he1⟩ := hb.rel.get ho
  obtain ⟨t1, t2, f1, f2, f3⟩ := hv o1 (List.mem_of_getElem? ho1)
  have hfail : failed = [] := by
    obtain ⟨t, ht, hc⟩ := hent.opt (.inr ⟨t1, (hfs t1).1 f1⟩)
    obtain ⟨m, h2, h3⟩ := hval t ht
    have hz : wsum (litV c.db c.outs t) K = 0 := by
      have := hK.icost hent.merge ht
      omega
    cases hf : failed with
    | nil => rfl
    | cons q fs =>
      exfalso
      have hq : q ∈ K.map softOf := q1.subset (by rw [hf]; simp)
      obtain ⟨⟨l, w⟩, hk, rfl⟩ := List.mem_map.1 hq
      refine q3 (softOf (l, w)) (by rw [hf]; simp) m h2 ?_
      rw [satisfies_soft, ← h3 _ hk]
      exact wsum_eq_zero hz hk (hK.pos _ _ hk)
  subst hfail
  rw [List.append_nil] at q1
  have hpS : ∀ q ∈ p.1, q ∈ K.map softOf := fun q hq => q1.subset (by simp [hq])
  have hperm : (p.1.map unSoft ++ held.map unSoft).Perm K := by
    have := q1.map unSoft
    rw [List.map_append, List.map_map] at this
    have e : List.map (unSoft ∘ softOf) K = K := by
      have : (unSoft ∘ softOf) = id := by funext q; exact unSoft_softOf q
      rw [this, List.map_id]
    rw [e] at this
    exact this
  have hzero : ∀ t, (pbAt inst opts bcg s).Sol t → Zero c t (held.map unSoft) := by
    intro t ht q hq
    obtain ⟨m, h2, h3⟩ := hval t ht
    rw [h3 q (hperm.subset (List.mem_append_right _ hq))]
    obtain ⟨q', hq', rfl⟩ := List.mem_map.1 hq
    have hq2 : q' ∈ K.map softOf := q1.subset (by simp [hq'])
    obtain ⟨k, -, rfl⟩ := List.mem_map.1 hq2
    rw [unSoft_softOf, ← satisfies_soft]
    exact q2 _ hq' m h2
  refine ⟨by rw [q4]; rfl, p0.2, K, p.1.map unSoft, held.map unSoft, softOf_unSoft hpS, hK, hent.merge, hperm, hzero, fun hnil => ?_⟩
  rw [hnil, List.nil_append] at hperm
  have hconst : ∀ t, (problem inst).Feasible t → icost o t = p0.1.offset := by
    intro t ht
    have ht' := (hfs t).1 ht
    rw [hK.icost hent.merge ht', ← wsum_perm hperm]
    have : wsum (litV c.db c.outs t) (held.map unSoft) ≤ wsum (fun _ => 0) (held.map unSoft) :=
      wsum_le fun q hq => by rw [hzero t ht' q hq]
    have h0 : ∀ A : List (Lit × Nat), wsum (fun _ => 0) A = 0 := fun A => by unfold wsum; simp
    rw [h0] at this
    omega
  apply f3
  rw [objValue_eq, objValue_eq]
  unfold extVal
  rw [← lb_icost he1, ← lb_icost he1, hconst t1 f1, hconst t2 f2]

/-- The state after the clauses of MaxPre have been given to the oracle. -/
theorem Collected.ready {s0 : Slv P C} {res : List (Reform × D)} {F F' : List Clause} {cs : List (Coll D)} {R : List (Softs × Int)} {io : Io}
    (hb : BInv inst opts bcg env s0 res s) (h : Collected inst opts bcg s res F n cs)
    (hkm : KeepsModels F (cs.map Coll.softs) F' R) : Ready inst opts bcg env s0 (List.zipWith (fun p c => (p.1, c.db)) res cs)
      { s with io := io, k := { s.k with db := F', ostate := .input, conflLimited := false, vm := { s.k.vm with nextVar := n } } } := by
  have hr := hb.ready
  have hmod : ∀ m, cnfEval m F' = true ↔ cnfEval m F = true := fun m => by rw [← satisfies_iff, ← satisfies_iff]; exact hkm.models m
  refine ⟨hr.rel, Nat.le_trans hr.next h.next, hr.origVar, hr.encVar, ?_, rfl, fun m hm => h.sol m ((hmod m).1 hm), ?_, hr.encs, ?_, ?_⟩
  · intro c hc l hl
    obtain ⟨c', h1, l', h2, h3⟩ := hkm.vars c hc l hl
    simp only
    rw [← h3]
    exact h.vars c' h1 l' h2
  · exact ⟨hr.frame.front, hr.frame.opts, hr.frame.bcg, hr.frame.origCnf, hr.frame.fence⟩
  · intro j r d o hj ho
    rw [List.getElem?_zipWith_eq_some] at hj
    obtain ⟨p, c, h1, h2, h3⟩ := hj
    simp only [Prod.mk.injEq] at h3
    obtain ⟨rfl, rfl⟩ := h3
    obtain ⟨p', h4, ha⟩ := forall2_getElem h.after h2
    rw [h1] at h4
    simp only [Option.some.injEq] at h4
    subst h4
    obtain ⟨K, hK⟩ := ha.items
    have he := hb.each j p.1 p.2 o h1 ho
    exact ⟨ha.below, ha.inputs, fun m hm => ha.sound m ((hmod m).1 hm), he.merge.keep hK.keep, he.shape, he.lower, he.opt, he.bound⟩
  · intro t ht
    obtain ⟨m, h1, h2, h3⟩ := h.ext t ht
    refine ⟨m, h1, (hmod m).2 h2, fun p hp => ?_⟩
    obtain ⟨j, hj⟩ := List.mem_iff_getElem?.1 hp
    rw [List.getElem?_zipWith_eq_some] at hj
    obtain ⟨p', c, a1, a2, rfl⟩ := hj
    exact h3 c (List.mem_of_getElem? a2)

theorem wp_inprocess {mp : MaxPre} {s0 : Slv P C} {res : List (Reform × D)} {Q : List (ObjEnc P C) → Slv P C → Prop} (hwf : WellFormed inst)
    (hm : MpKeeps inst mp) (hv : Varies inst) (hb : BInv inst opts bcg env s0 res s) (hlen : res.length = inst.objs.length)
    (hcnf : s.k.opts.storeCnf = true → s.k.origCnf = some inst.clauses)
    (hQ : ∀ es s' (res' : List (Reform × D)), res'.length = inst.objs.length → Ready inst opts bcg env s0 res' s' → IoInv env inst.objs.length s'.io →
      es.length = inst.objs.length → (∀ (j : Nat) e r d o, es[j]? = some e → res'[j]? = some (r, d) → s'.k.objs[j]? = some o →
        GoodEnc (pbAt inst opts bcg s') o d r.offset e) → Q es s') :
    wp env (inprocess mp res) Q (fun _ _ => True) s := by
  unfold inprocess logRoutineStart logRoutineEnd
  rw [wp_bind, wp_getS]
  cases hst : s.k.opts.storeCnf with
  | false => rw [if_neg (by simp), wp_stop]; trivial
  | true =>
    rw [if_pos rfl, wp_bind, wp_modifyS, wp_bind, hcnf hst, wp_unwrap_some]
    have hc := hb.collected hwf hlen
    generalize collectAll inst.clauses s.k.vm.nextVar res = c at hc ⊢
    have hkm := hm _ _ _ (hc.standsFor hb hlen)
    have hcl : c.2.2.length = inst.objs.length := by rw [← hc.after.length_eq, hlen]
    have hRl : (mp.run c.1 (c.2.2.map Coll.softs)).2.length = inst.objs.length := by
      rw [← hkm.softs.length_eq, List.length_map, hcl]
    simp only
    rw [wp_bind, wp_modifyS, wp_bind]
    refine wp_logEvent _ (by exact hb.io) (fun s1 h1 k1 io1 => ?_) (fun _ _ _ _ => trivial)
    rw [wp_bind]
    refine wp_logEvent _ io1 (fun s2 h2 k2 io2 => ?_) (fun _ _ _ _ => trivial)
    rw [wp_bind]
    refine wp_logEvent _ io2 (fun s3 h3 k3 io3 => ?_) (fun _ _ _ _ => trivial)
    rw [wp_bind]
    refine wp_checkTermination io3 (fun s4 h4 k4 io4 _ => ?_) (fun _ _ _ _ => trivial)
    rw [wp_bind, wp_getS, wp_bind]
    have e4 : s4 = { s with io := s4.io, k := { s.k with db := [], ostate := .input, conflLimited := false, vm := { s.k.vm with nextVar := c.2.1 } } } := by
      rw [h4.setIo k4, h3.setIo k3, h2.setIo k2, h1.setIo k1]
    cases hmv : s4.k.vm.maxVar with
    | none => rw [wp_unwrap_none]; trivial
    | some v =>
      rw [wp_unwrap_some, wp_bind, wp_modifyS, wp_bind]
      refine wp_checkTermination (by exact io4) (fun s5 h5 k5 io5 _ => ?_) (fun _ _ _ _ => trivial)
      have e5 : s5 = { s with io := s5.io, k := { s.k with db := (mp.run c.1 (c.2.2.map Coll.softs)).1, ostate := .input, conflLimited := false, vm := { s.k.vm with nextVar := c.2.1 } } } := by
        rw [h5.setIo k5, e4]
      have hob : s5.k.objs = s.k.objs := by rw [e5]
      have hpb : pbAt inst opts bcg s5 = pbAt inst opts bcg s := by unfold pbAt; rw [hob]
      refine wp_inproEncs (pb := pbAt inst opts bcg s5) 0 _ _ s.k.objs ?_ ?_ ?_ io5 fun es s6 h6 k6 io6 hel hgood => ?_
      · rw [List.length_zip, List.length_map, hRl, hcl, hlen, Nat.min_self]
      · rw [hRl]; exact hb.rel.length
      · intro j p r o a1 a2 a3
        rw [hpb]
        exact hc.partOK hb hkm hv j p r o a1 a2 a3
      · have hrd : Ready inst opts bcg env s0 (List.zipWith (fun p c => (p.1, c.db)) res c.2.2) s5 := by
          rw [e5]; exact hc.ready hb hkm
        refine hQ es s6 _ ?_ (hrd.same h6 k6) io6 (by rw [hel, hRl]) fun j e r d o a1 a2 a3 => ?_
        · rw [List.length_zipWith, hcl, hlen, Nat.min_self]
        · rw [List.getElem?_zipWith_eq_some] at a2
          obtain ⟨p, cc, b1, b2, b3⟩ := a2
          simp only [Prod.mk.injEq] at b3
          obtain ⟨rfl, rfl⟩ := b3
          have e6 : pbAt inst opts bcg s6 = pbAt inst opts bcg s5 := by unfold pbAt; rw [k6]
          rw [e6]
          refine hgood j e (p.1, cc) o a1 ?_ (by rw [k6, hob] at a3; exact a3)
          rw [List.getElem?_zip_eq_some]
          exact ⟨by rw [List.getElem?_map, b1]; rfl, b2⟩

theorem wp_coreBoostInpro {fuel : Nat} {mp : MaxPre} {alg : Alg} (hs : Setting inst bcg opts env) (nd : NoDupCores env) (hlits : NoDupLits inst)
    (hm : MpKeeps inst mp) (hv : Varies inst) (h : Fine inst opts bcg s) (htwo : alg = .biOptSat → inst.objs.length = 2) :
    wp env (coreBoostInpro D alg mp fuel) (fun r s' => IoInv env inst.objs.length s'.io ∧
      (r = false → ¬ ∃ t, (problem inst).Feasible t) ∧ (r = true → Boosted inst opts bcg s s')) (fun _ _ => True) s := by
  unfold coreBoostInpro
  rw [wp_bind, wp_getS]
  simp only [h.calls, ne_eq, not_true_eq_false, if_false]
  rw [wp_bind]
  refine wp_mono (wp_kernelCoreBoost hs nd hlits h.binv) ?_ (fun _ _ _ => trivial)
  rintro r s1 ⟨hio1, hr⟩
  cases r with
  | none =>
    simp only at hr ⊢
    rw [wp_pure]
    exact ⟨hio1, fun _ => hr, by simp⟩
  | some res =>
    simp only at hr ⊢
    obtain ⟨hb, hlen⟩ := hr
    rw [wp_bind]
    refine wp_checkTermination hio1 (fun s2 h2 hk2 hio2 _ => ?_) (fun _ _ _ _ => trivial)
    have hb2 := hb.same h2 hk2 hio2
    rw [wp_bind]
    refine wp_inprocess hs.wf hm hv hb2 hlen (fun hst => ?_) fun es s3 res' hlen' hrd hio3 hel hgood => ?_
    · rw [hb2.frame.origCnf]
      exact h.cnf (by rw [← hst, hb2.frame.opts, h.kopts])
    · rw [wp_bind]
      have hobj : ∀ o ∈ inst.objs, o.isConstant = false := by
        intro o ho
        obtain ⟨t, t', -, -, h3⟩ := hv o ho
        by_contra hc
        apply h3
        have hit : o.iter = [] := by cases o <;> simp_all [Objective.isConstant, Objective.iter]
        rw [objValue_eq, objValue_eq]
        unfold extVal icost
        rw [hit]
        rfl
      have hset : wp env (setInproEncs alg es) (fun _ s4 => s4 = { s3 with encs := es }) (fun _ _ => True) s3 := by
        unfold setInproEncs
        split
        · rw [htwo rfl] at hel
          match es, hel with
          | [e0, e1], _ =>
            simp only [List.getLast?_cons_cons, List.getLast?_singleton, List.dropLast]
            rw [wp_bind, wp_unwrap_some, wp_bind, wp_unwrap_some, wp_modifyS]
        · rw [wp_modifyS]
      refine wp_mono hset ?_ (fun _ _ _ => trivial)
      rintro _ s4 rfl
      have henc3 : s3.encs.length = inst.objs.length := by rw [hrd.encs]; exact h.inv.len.trans h.rel.length
      have hrep : Replaced (pbAt inst opts bcg s3) 0 res' s3 { s3 with encs := es } := by
        refine ⟨rfl, rfl, rfl, by simp only; rw [hel, henc3], by simp, fun j r d o a1 a2 => ?_⟩
        rw [Nat.zero_add] at a2 ⊢
        have hlt : j < es.length := by rw [hel, ← hlen']; exact (List.getElem?_eq_some_iff.1 a1).1
        refine ⟨fun hc => ?_, fun _ => ⟨es[j], List.getElem?_eq_getElem hlt, hgood j _ r d o (List.getElem?_eq_getElem hlt) a1 a2⟩⟩
        obtain ⟨o1, ho1, he1⟩ := hrd.rel.get a2
        rw [lb_isConstant he1, hobj o1 (List.mem_of_getElem? ho1)] at hc
        simp at hc
      have hb5 := hrd.boosted hrep hlen' henc3 h.front h.const
      rw [wp_bind]
      refine wp_checkTermination (by exact hio3) (fun s6 h6 hk6 hio6 _ => ?_) (fun _ _ _ _ => trivial)
      rw [wp_pure]
      refine ⟨hio6, by simp, fun _ => ?_⟩
      rw [h6.setIo hk6]
      refine ⟨hb5.rel, ?_, ⟨hb5.frame.front, hb5.frame.opts, hb5.frame.bcg, hb5.frame.origCnf, hb5.frame.fence⟩,
        hb5.tops, hb5.lower, hb5.attained, hb5.offset, hb5.const, hb5.encConst⟩
      have hsm : Same { s3 with encs := es } { { s3 with encs := es } with io := s6.io } := ⟨rfl, rfl, rfl, rfl⟩
      exact hb5.core.grow hsm.step.toGrow hb5.core.abs (hb5.core.inv.same hsm)

end Scuttle
