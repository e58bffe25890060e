import Verif.Proof.Oll

/-!
# Rules for the loop of the OLL algorithm
-/

set_option linter.unusedSectionVars false

namespace Scuttle

open Spec

variable {P C D : Type} [UbEnc P] [UbEnc C] [LawfulUbEnc P] [LawfulUbEnc C] [TotDb D] [LawfulTotDb D]
variable {env : Env} {s s' s'' : Slv P C} {pb : Pb} {d d' d'' : D} {n fuel N : Nat} {o : Objective}
  {E : Stop → Slv P C → Prop}

open TotSem (Node Inner cnt Sound Exact Below Inputs Base IsOut)

theorem RefOK.anyPw {I : List (Lit × Nat)} {R : List (Lit × ReformData)} {U : List (List NodeCon × Nat)} {off pw : Nat}
    (pw' : Nat) (h : RefOK pb o d I R U off pw []) : RefOK pb o d I R U off pw' [] :=
  { h with
    ident := fun t ht => by rw [h.ident t ht]; simp
    total := fun hs => by rw [← h.total hs]; simp }

/-- Connections of a core. -/
def sliceOf (cons : List NodeCon) (c : CoreData) : List NodeCon × Nat := ((cons.drop c.idx).take c.len, c.weight)

/-- The cores refer to the list of connections. -/
def SlicesOK (cores : List CoreData) (cons : List NodeCon) : Prop := ∀ c ∈ cores, c.idx + c.len ≤ cons.length

theorem sliceOf_append {cons extra : List NodeCon} {c : CoreData} (h : c.idx + c.len ≤ cons.length) :
    sliceOf (cons ++ extra) c = sliceOf cons c := by
  unfold sliceOf
  rw [List.drop_append_of_le_length (by omega), List.take_append_of_le_length (by rw [List.length_drop]; omega)]

theorem sliceOf_new (cons extra : List NodeCon) (w : Nat) :
    sliceOf (cons ++ extra) ⟨cons.length, extra.length, w⟩ = (extra, w) := by
  unfold sliceOf
  simp

/-- What holds between steps of the search; `U` are the cores that are still to be reformulated. -/
structure OInv (pb : Pb) (env : Env) (n : Nat) (o : Objective) (st : OllState D) (U : List (List NodeCon × Nat))
    (s : Slv P C) : Prop where
  cg : CG pb st.db s
  lim : s.k.conflLimited = false
  io : IoInv env n s.io
  ref : RefOK pb o st.db st.reform.inactives.wts st.reform.refs U st.reform.offset 0 []
  ones : OnesOK st.reform.inactives st.reform.refs U
  rest : RestOK st.rest st.reform.inactives.wts

/-- In every solution, a literal of a core stands for something true. -/
theorem CG.core_true {I : List (Lit × Nat)} {R : List (Lit × ReformData)} {U : List (List NodeCon × Nat)}
    {off pw : Nat} {pend : List NodeCon} (hi : CG pb d s) (hob : ∀ l ∈ objLits o, l.var < pb.n0)
    (h : RefOK pb o d I R U off pw pend) {core : List Lit} (hc : ∀ m, cnfEval m s.k.db = true → clauseEval m core = true)
    (hk : ∀ l ∈ core, ∃ w, 0 < w ∧ (l, w) ∈ I) {t : Asg} (ht : pb.Sol t) : ∃ l ∈ core, litV d R t l = 1 := by
  obtain ⟨m, h1, h2, h3⟩ := hi.ext t ht
  have := hc m h2.db
  unfold clauseEval at this
  obtain ⟨l, hl, hl'⟩ := List.any_eq_true.1 this
  refine ⟨l, hl, ?_⟩
  obtain ⟨w, hw, hm⟩ := hk l hl
  unfold litV
  cases hg : mapGet l R with
  | none =>
    simp only
    rw [Lit.eval_agree h1 (hob l (h.orig l w hm hw hg)), if_pos hl']
  | some rd =>
    simp only
    obtain ⟨r1, r2, -⟩ := h.refs l rd hg
    rw [hi.cnt_agree h1 (LawfulTotDb.inner_node _ _ r1), if_pos (LawfulTotDb.out_exact _ _ _ _ _ r2 h3 hl')]

theorem addUsize_some {b : Bool} {x y z : Nat} (h : addUsize b x y = some z) (hle : x + y ≤ usizeMax) : z = x + y := by
  unfold addUsize at h
  rw [if_pos hle] at h
  simpa using h.symm

theorem sum_ge_of_mem {f : Lit → Nat} {ls : List Lit} {l : Lit} (h : l ∈ ls) : f l ≤ (ls.map f).sum := by
  induction ls with
  | nil => simp at h
  | cons a ls ih =>
    simp only [List.map_cons, List.sum_cons]
    rcases List.mem_cons.1 h with rfl | h
    · omega
    · have := ih h; omega

theorem length_le_wsum {I : List (Lit × Nat)} (hk : (I.map Prod.fst).Nodup) {core : List Lit} (hn : core.Nodup)
    (h : ∀ l ∈ core, ∃ w, 0 < w ∧ (l, w) ∈ I) : core.length ≤ wsum (fun _ => 1) I := by
  have h1 : ∀ l ∈ core, l ∈ (I.filter fun p => p.2 > 0).map Prod.fst := by
    intro l hl
    obtain ⟨w, hw, hm⟩ := h l hl
    exact List.mem_map.2 ⟨(l, w), by simp [hm, hw], rfl⟩
  have h2 := nodup_length_le hn h1
  rw [List.length_map] at h2
  refine Nat.le_trans h2 ?_
  rw [← wsum_filter]
  clear h1 h2 h hk
  induction I with
  | nil => simp
  | cons p I ih =>
    simp only [List.filter_cons]
    split
    · next hp =>
      simp only [decide_eq_true_eq] at hp
      simp only [wsum, List.map_cons, List.sum_cons, List.length_cons] at ih ⊢
      omega
    · exact ih

variable {U : List (List NodeCon × Nat)} {sb : Slv P C}

theorem wp_handleCore (wf : pb.WF) (orc : OracleOK env) (nd : NoDupCores env)
    (hob : ∀ l ∈ objLits o, l.var < pb.n0) (hfit : ∀ t, pb.Sol t → icost o t ≤ usizeMax) (hN : maxCost o ≤ N)
    {st : OllState D} {core : List Lit} (h : OInv pb env n o st (st.cores.map (sliceOf st.cons)) s)
    (hsl : SlicesOK st.cores st.cons) (hc : CoreFor s core)
    (hk : ∀ l ∈ core, ∃ w, 0 < w ∧ (l, w) ∈ st.reform.inactives.wts) (hu : Usable pb sb s) :
    wp env (handleCore fuel [] st core) (fun st' s' => OInv pb env n o st' (st'.cores.map (sliceOf st'.cons)) s' ∧
      SlicesOK st'.cores st'.cons ∧ TStep s st.db s' st'.db ∧
      ((∃ t, pb.Sol t) → st.reform.offset < st'.reform.offset)) (GStop pb env n fuel N sb) s := by
  unfold handleCore
  rw [wp_bind]
  refine wp_mono (wp_minimizeCore orc nd core h.lim h.io hc hu) ?_ (fun _ _ h => h)
  rintro core1 s1 ⟨h1, hio1, hc1, hsub1⟩
  rw [wp_bind]
  refine wp_mono (wp_trimCore orc nd core1 (by rw [h1.lim]; exact h.lim) hio1 (hc1.same h1) ?_ (hu.same h1)) ?_ (fun _ _ h => h)
  · intro hs
    refine Nat.le_trans (length_le_wsum h.ref.keys hc1.nodup fun l hl => hk l (hsub1 l hl)) ?_
    have := h.ref.total hs
    omega
  rintro core2 s2 ⟨h2, hio2, hc2, hsub2⟩
  have h12 := h1.trans h2
  have hk2 : ∀ l ∈ core2, ∃ w, 0 < w ∧ (l, w) ∈ st.reform.inactives.wts := fun l hl => hk l (hsub1 l (hsub2 l hl))
  have himp : ∀ m, cnfEval m s.k.db = true → clauseEval m core2 = true := by
    have := hc2.implied
    rw [h1.db] at this
    exact this
  obtain ⟨cw, hcw, hpos, hone, hcore⟩ := coreWeight_spec h.ones.good h.ref.keys core2 hk2
  -- the offset does not overflow
  have hoff : ∀ t, pb.Sol t → st.reform.offset + cw ≤ icost o t := by
    intro t ht
    obtain ⟨l, hl, hv⟩ := h.cg.core_true hob h.ref himp hk2 ht
    obtain ⟨w, hw, hm⟩ := hcore l hl
    have e := h.ref.ident t ht
    have := wsum_pos (f := litV st.db st.reform.refs t) hm
    rw [hv] at this
    omega
  rw [wp_bind, hcw, wp_unwrap_some, wp_bind, wp_isDebug, wp_bind]
  cases hadd : addUsize env.debug st.reform.offset cw with
  | none =>
    rw [wp_unwrap_none]
    refine ⟨hio2.base, ?_⟩
    rintro ⟨t, ht⟩
    unfold addUsize at hadd
    rw [if_pos (Nat.le_trans (hoff t ht) (hfit t ht))] at hadd
    simp at hadd
  | some off' =>
  rw [wp_unwrap_some]
  have hoff' : (∃ t, pb.Sol t) → off' = st.reform.offset + cw := by
    rintro ⟨t, ht⟩
    exact addUsize_some hadd (Nat.le_trans (hoff t ht) (hfit t ht))
  rw [wp_bind]
  refine wp_logEvent _ hio2 (fun s3 h3 hk3 hio3 => ?_) (fun e s' hh h => GStop.ofIo (hu.same h12) hh h)
  have h13 := h12.trans h3
  rw [wp_bind]
  refine wp_mono (wp_relaxLoop (U := st.cores.map (sliceOf st.cons)) (off := st.reform.offset) wf hob hpos core2
    (st := ⟨st.reform.inactives, st.reform.refs, st.db, st.rest, []⟩)
    (h.cg.same h13) hio3 ⟨h.ref.anyPw cw, h.ones, hone, h.rest⟩ hc2.nodup hcore) ?_ (fun _ _ h => h)
  rintro r s4 ⟨k4, hl4, hr4, hu4, hlen4, hsum4⟩
  simp only [List.length_nil, Nat.zero_add, List.map_nil, List.sum_nil] at hlen4 hsum4
  have hge : ∀ t, pb.Sol t → 1 ≤ (r.cons.map (conVal r.db t)).sum := by
    intro t ht
    rw [hsum4]
    obtain ⟨l, hl, hv⟩ := h.cg.core_true hob h.ref himp hk2 ht
    have := sum_ge_of_mem (f := litV st.db st.reform.refs t) hl
    omega
  have hstep : TStep s st.db s4 r.db := (h13.tstep st.db).trans k4.step
  have hlt : (∃ t, pb.Sol t) → st.reform.offset < off' := fun hs => by rw [hoff' hs]; omega
  have hlim : s4.k.conflLimited = false := by rw [hl4, h13.lim]; exact h.lim
  rw [wp_bind]
  refine wp_dbg (by simp [hlen4]) ?_
  simp only
  split
  · next h1 =>
    rw [wp_pure]
    have e : (st.cores ++ [(⟨st.cons.length, r.cons.length, cw⟩ : CoreData)]).map (sliceOf (st.cons ++ r.cons)) =
        st.cores.map (sliceOf st.cons) ++ [(r.cons, cw)] := by
      rw [List.map_append, List.map_singleton, sliceOf_new]
      congr 1
      exact List.map_congr_left fun c hc => sliceOf_append (hsl c hc)
    refine ⟨⟨k4.cg, hlim, k4.io, ?_, ⟨hr4.ones.good, hr4.ones.refs, ?_⟩, hr4.rest⟩, ?_, hstep, hlt⟩
    · simp only [e]
      exact hr4.ref.store (by omega) hpos hge hoff'
    · simp only [e]
      intro hu u hmem
      rcases List.mem_append.1 hmem with hmem | hmem
      · exact hr4.ones.cores hu u hmem
      · simp only [List.mem_singleton] at hmem
        rw [hmem]
        exact hr4.one hu
    · intro c hc
      simp only [List.length_append]
      rcases List.mem_append.1 hc with hc | hc
      · have := hsl c hc; omega
      · simp only [List.mem_singleton] at hc
        subst hc
        simp
  · next h1 =>
    rw [wp_pure]
    exact ⟨⟨k4.cg, hlim, k4.io, hr4.ref.unit (by omega) hge hoff', hr4.ones, hr4.rest⟩, hsl, hstep, hlt⟩

/-! ## Reformulating cores -/

theorem usum_pos {h : List NodeCon → Nat} {u : List NodeCon × Nat} (hu : u ∈ U) : u.2 * h u.1 ≤ usum h U := by
  unfold usum
  induction U with
  | nil => simp at hu
  | cons p U ih =>
    simp only [List.map_cons, List.sum_cons]
    rcases List.mem_cons.1 hu with rfl | hu
    · exact Nat.le_add_right _ _
    · exact Nat.le_trans (ih hu) (Nat.le_add_left _ _)

theorem wp_reformCore (wf : pb.WF) (orc : OracleOK env)
    (hob : ∀ l ∈ objLits o, l.var < pb.n0) (hfit : ∀ t, pb.Sol t → icost o t ≤ usizeMax)
    {st : OllState D} {c : CoreData} (h : OInv pb env n o st (sliceOf st.cons c :: U) s)
    (hsl : c.idx + c.len ≤ st.cons.length) (hu : Usable pb sb s) :
    wp env (reformCore [] st c) (fun st' s' => OInv pb env n o st' U s' ∧ st'.cores = st.cores ∧ st'.cons = st.cons ∧
      TStep s st.db s' st'.db ∧ ((∃ t, pb.Sol t) → st.reform.offset ≤ st'.reform.offset)) (GStop pb env n fuel N sb) s := by
  unfold reformCore
  rw [wp_bind, if_pos hsl, wp_unwrap_some]
  have hsv : sliceOf st.cons c = ((st.cons.drop c.idx).take c.len, c.weight) := rfl
  rw [hsv] at h
  generalize (st.cons.drop c.idx).take c.len = cons at h ⊢
  obtain ⟨c1, c2, c3, c4⟩ := h.ref.cores (cons, c.weight) (by simp)
  simp only at c1 c2 c3 c4
  have hcons : ∀ x ∈ cons, Node st.db x.id ∧ x.weight = 1 ∧ 0 < conLen st.db x := fun x hx =>
    ⟨(c3 x hx).node, (c3 x hx).weight, by rw [(c3 x hx).len]; omega⟩
  obtain ⟨k1, k2⟩ := h.cg.merge cons
  have m1 := LawfulTotDb.merge_inner st.db cons c1
  have m2 := LawfulTotDb.merge_new st.db cons c1
  have m3 := fun t => LawfulTotDb.merge_cnt st.db cons t c1 hcons
  have m4 := LawfulTotDb.merge_len st.db cons c1 hcons
  rw [sum_conLen c3] at m4
  generalize TotDb.merge st.db cons = mr at k1 k2 m1 m2 m3 m4
  obtain ⟨d1, root⟩ := mr
  simp only at k1 k2 m1 m2 m3 m4 ⊢
  have hrn := LawfulTotDb.inner_node _ _ m1
  rw [wp_bind]
  refine wp_mono (wp_exhaustCore wf orc k1 h.lim h.io hrn (by rw [m4]; exact c1) ?_ hu) ?_ (fun _ _ h => h)
  · intro t ht; rw [m3]; exact c4 t ht
  rintro ⟨olit, b, d2⟩ s1 ⟨k3, hl1, hb1, hb2, hb3, hb4⟩
  simp only at k3 hb1 hb2 hb3 hb4 ⊢
  have hu1 : Usable pb sb s1 := hu.step k3.cg k3.step (by rw [hl1]; simp)
  have hst : DStep st.db d2 := k2.step.trans k3.step.step
  have hcnt : ∀ t, cnt d2 root t = (cons.map (conVal st.db t)).sum := fun t => by
    rw [k3.step.step.cnt root t hrn, m3]
  have hlen : TotDb.len d2 root = cons.length := by rw [k3.step.step.len root hrn, m4]
  have hlen1 : TotDb.len d1 root = TotDb.len d2 root := by rw [hlen, m4]
  have hge : ∀ t, pb.Sol t → b ≤ cnt d2 root t := fun t ht => by
    rw [k3.step.step.cnt root t hrn]; exact hb3 t ht
  have hoff : ∀ t, pb.Sol t → st.reform.offset + (b - 1) * c.weight ≤ icost o t := by
    intro t ht
    have e := h.ref.ident t ht
    have := usum_pos (U := (cons, c.weight) :: U) (h := fun cons => (cons.map (conVal st.db t)).sum - 1)
      (u := (cons, c.weight)) (by simp)
    simp only at this
    rw [← hcnt t] at this
    have h2 : (b - 1) * c.weight ≤ c.weight * (cnt d2 root t - 1) := by
      rw [Nat.mul_comm]
      have := hge t ht
      exact Nat.mul_le_mul_left _ (by omega)
    omega
  rw [wp_bind]
  have hofs : wp env (if b > 1 then do
        let d ← isDebug
        let offset ← unwrap (addUsize d st.reform.offset ((b - 1) * c.weight))
        logEvent (.coreExhaustion b c.weight)
        M.pure offset
      else M.pure st.reform.offset)
      (fun off' s2 => Same s1 s2 ∧ IoInv env n s2.io ∧
        ((∃ t, pb.Sol t) → off' = st.reform.offset + (b - 1) * c.weight)) (GStop pb env n fuel N sb) s1 := by
    split
    · rw [wp_bind, wp_isDebug, wp_bind]
      cases hadd : addUsize env.debug st.reform.offset ((b - 1) * c.weight) with
      | none =>
        rw [wp_unwrap_none]
        refine ⟨k3.io.base, ?_⟩
        rintro ⟨t, ht⟩
        unfold addUsize at hadd
        rw [if_pos (Nat.le_trans (hoff t ht) (hfit t ht))] at hadd
        simp at hadd
      | some off' =>
        rw [wp_unwrap_some, wp_bind]
        refine wp_logEvent _ k3.io (fun s2 h2 hk2 hio2 => ?_) (fun e s' hh h => GStop.ofIo hu1 hh h)
        rw [wp_pure]
        refine ⟨h2, hio2, ?_⟩
        rintro ⟨t, ht⟩
        exact addUsize_some hadd (Nat.le_trans (hoff t ht) (hfit t ht))
    · next hb =>
      rw [wp_pure]
      refine ⟨Same.refl _, k3.io, fun _ => ?_⟩
      have : b - 1 = 0 := by omega
      rw [this]; simp
  refine wp_mono hofs ?_ (fun _ _ h => h)
  rintro off' s2 ⟨h2, hio2, ho2⟩
  have hstep : TStep s st.db s2 d2 := (k2.trans k3.step).trans (h2.tstep d2)
  have hcg := k3.cg.same h2
  have hlim : s2.k.conflLimited = false := by rw [h2.lim]; exact hl1
  have hle : (∃ t, pb.Sol t) → st.reform.offset ≤ off' := fun hs => by rw [ho2 hs]; omega
  split
  · next hb =>
    obtain ⟨hr, hfresh⟩ := h.ref.reform hob hst k3.cg.base (k3.step.step.inner _ m1) m2 hcnt hlen hb1 hb hge
      (hb4 (by omega)) ho2
    rw [wp_bind]
    refine Inactives.wp_insert h.ones.good hfresh (fun hu => h.ones.cores hu (cons, c.weight) (by simp)) ?_
    intro i hi1 hi2 hi3
    rw [wp_pure]
    have hfr : olit ∉ st.reform.refs.map Prod.fst := fun hm => hfresh (h.ref.rkey_mem hm)
    refine ⟨⟨hcg, hlim, hio2, ?_, ⟨hi3, ?_, ?_⟩, ?_⟩, rfl, rfl, hstep, hle⟩
    · simp only [hi1, mapInsert_fresh hfr]; exact hr
    · simp only [hi2, mapInsert_fresh hfr]
      intro hu x rd' hx
      rw [mapGet_append] at hx
      rcases Option.or_eq_some_iff.1 hx with hx | ⟨-, hx⟩
      · exact h.ones.refs hu x rd' hx
      · simp only [mapGet] at hx
        split at hx
        · simp only [Option.some.injEq] at hx
          rw [← hx]
          exact h.ones.cores hu (cons, c.weight) (by simp)
        · simp at hx
    · simp only [hi2]
      exact fun hu u hm => h.ones.cores hu u (by simp [hm])
    · simp only [hi1]
      exact h.rest.append _ hfresh
  · next hb =>
    rw [wp_pure]
    refine ⟨⟨hcg, hlim, hio2, ?_, ⟨h.ones.good, h.ones.refs, fun hu u hm => h.ones.cores hu u (by simp [hm])⟩, h.rest⟩,
      rfl, rfl, hstep, hle⟩
    exact h.ref.reformAll hst hcnt hlen (k3.step.step.inner _ m1) (by omega) hge ho2

theorem wp_reformCores (wf : pb.WF) (orc : OracleOK env)
    (hob : ∀ l ∈ objLits o, l.var < pb.n0) (hfit : ∀ t, pb.Sol t → icost o t ≤ usizeMax) (cs : List CoreData)
    {st : OllState D} (h : OInv pb env n o st (cs.map (sliceOf st.cons)) s) (hsl : SlicesOK cs st.cons)
    (hu : Usable pb sb s) :
    wp env (reformCores [] cs st) (fun st' s' => OInv pb env n o st' [] s' ∧ st'.cores = [] ∧ st'.cons = [] ∧
      TStep s st.db s' st'.db ∧ ((∃ t, pb.Sol t) → st.reform.offset ≤ st'.reform.offset)) (GStop pb env n fuel N sb) s := by
  induction cs generalizing st s with
  | nil =>
    unfold reformCores
    rw [wp_pure]
    exact ⟨⟨h.cg, h.lim, h.io, h.ref, h.ones, h.rest⟩, rfl, rfl, TStep.refl _ _, fun _ => Nat.le_refl _⟩
  | cons c cs ih =>
    unfold reformCores
    rw [wp_bind]
    refine wp_mono (wp_reformCore wf orc hob hfit (U := cs.map (sliceOf st.cons)) h (hsl c (by simp)) hu) ?_ (fun _ _ h => h)
    rintro st1 s1 ⟨h1, -, hc1, hs1, hl1⟩
    refine wp_mono (ih (by rw [hc1]; exact h1) (by rw [hc1]; exact fun c hc => hsl c (by simp [hc]))
      (hu.step h1.cg hs1 (by rw [h1.lim]; simp))) ?_ (fun _ _ h => h)
    rintro st2 s2 ⟨h2, hc2, hc3, hs2, hl2⟩
    exact ⟨h2, hc2, hc3, hs1.trans hs2, fun hs => Nat.le_trans (hl1 hs) (hl2 hs)⟩

theorem wp_reserveOutputs (wf : pb.WF) (ps : List (Lit × ReformData)) (hi : CG pb d s)
    (hio : IoInv env n s.io) :
    wp env (reserveOutputs ps d) (fun d' s' => Keeps pb env n s d s' d' ∧ s'.k.conflLimited = s.k.conflLimited ∧
      s'.k.ostate = s.k.ostate) E s := by
  induction ps generalizing d s with
  | nil =>
    unfold reserveOutputs
    rw [wp_pure]
    exact ⟨⟨hi, TStep.refl _ _, hio⟩, rfl, rfl⟩
  | cons p ps ih =>
    unfold reserveOutputs
    rw [wp_bind, wp_getS]
    simp only
    rw [wp_bind, wp_modifyS]
    obtain ⟨h1, h2⟩ := CG.define (d' := (TotDb.reserve d p.2.root (p.2.oidx + 1) s.k.vm.nextVar).1) (cs := []) wf hi
      (k := s.k.ostate) (n' := (TotDb.reserve d p.2.root (p.2.oidx + 1) s.k.vm.nextVar).2)
      (LawfulTotDb.reserve_next d _ _ _ hi.below) (VarsBelow.nil _) (LawfulTotDb.reserve_below d _ _ _ hi.below)
      (LawfulTotDb.reserve_base d _ _ _ _ hi.base hi.below hi.n0_le) (LawfulTotDb.reserve_inputs d _ _ _ _ hi.inputs)
      (fun m h _ => LawfulTotDb.reserve_sound d _ _ _ m h)
      (fun m h => by
        obtain ⟨m', g1, g2⟩ := LawfulTotDb.reserve_exact d p.2.root (p.2.oidx + 1) _ m hi.below h
        exact ⟨m', g1, rfl, g2⟩) (LawfulTotDb.reserve_step d _ _ _) rfl
    simp only [List.append_nil] at h1 h2
    refine wp_mono (ih h1 hio) ?_ (fun _ _ h => h)
    rintro d2 s2 ⟨k2, hl2, ho2⟩
    exact ⟨⟨k2.cg, h2.trans k2.step, k2.io⟩, hl2, ho2⟩

/-! ## The loop -/

/-- What a successful run of the search establishes. -/
structure OllDone (pb : Pb) (env : Env) (n : Nat) (o : Objective) (s0 : Slv P C) (d0 : D) (reform : Reform) (d : D)
    (s : Slv P C) : Prop where
  keeps : Keeps pb env n s0 d0 s d
  lim : s.k.conflLimited = false
  ref : RefOK pb o d reform.inactives.iter reform.refs [] reform.offset 0 []
  pos : ∀ l w, (l, w) ∈ reform.inactives.iter → 0 < w
  opt : ∃ t, pb.Sol t ∧ icost o t = reform.offset
  shape : reform.inactives ≠ .constant → reform.inactives.iter ≠ []

theorem OllDone.lower {s0 : Slv P C} {d0 : D} {reform : Reform} (h : OllDone pb env n o s0 d0 reform d s) (t : Asg)
    (ht : pb.Sol t) : reform.offset ≤ icost o t := by
  rw [h.ref.ident t ht]; omega

/-- Result of the search. -/
def OllPost (pb : Pb) (env : Env) (n : Nat) (o : Objective) (s0 : Slv P C) (d0 : D) (r : OllResult D) (s : Slv P C) : Prop :=
  match r with
  | (some _, reform, d) => OllDone pb env n o s0 d0 reform d s
  | (none, _, _) => (¬ ∃ t, pb.Sol t) ∧ IoInv env n s.io ∧ s.k.conflLimited = false ∧ ∃ d, CG pb d s ∧ TStep s0 d0 s d

/-- If no literal of positive weight is true, the objective has the value of the offset. -/
theorem CG.opt_of_false {I : List (Lit × Nat)} {R : List (Lit × ReformData)}
    {off pw : Nat} (hi : CG pb d s) (h : RefOK pb o d I R [] off pw []) {m : Asg} (hm : cnfEval m s.k.db = true)
    (hf : ∀ l w, (l, w) ∈ I → 0 < w → l.eval m = false) : icost o m = off := by
  have hnot : ∀ l rd, mapGet l R = some rd → cnt d rd.root m ≤ rd.oidx := by
    intro l rd hg
    obtain ⟨r1, r2, -, -, w, hw, hmem⟩ := h.refs l rd hg
    by_contra hc
    have := LawfulTotDb.out_sound _ _ _ _ m r2 (hi.sound m hm) (by omega)
    rw [hf l w hmem hw] at this
    simp at this
  have e1 : wsum (litV d R m) I = 0 := by
    rw [wsum_congr (g := fun _ => 0)]
    · simp [wsum]
    · intro l w hl hw
      unfold litV
      cases hg : mapGet l R with
      | none => simp only; rw [hf l w hl hw]; simp
      | some rd => simp only; rw [if_neg (by have := hnot l rd hg; omega)]
  have e2 : rsum (fun rd => cnt d rd.root m - (rd.oidx + 1)) R = 0 := by
    rw [rsum_congr (h := fun _ => 0)]
    · simp [rsum]
    · intro p hp
      have := hnot p.1 p.2 (mapGet_of_mem h.rkeys hp)
      omega
  rw [h.ident m (hi.sol hm), e1, e2]
  simp [usum]

/-- Invariant of the loop. -/
structure LInv (pb : Pb) (env : Env) (n : Nat) (o : Objective) (s0 : Slv P C) (d0 : D) (st : OllState D)
    (s : Slv P C) : Prop where
  inv : OInv pb env n o st (st.cores.map (sliceOf st.cons)) s
  slices : SlicesOK st.cores st.cons
  step : TStep s0 d0 s st.db

/-- Measure of the loop. -/
def ollMeasure (o : Objective) (st : OllState D) : Nat :=
  2 * (maxCost o - st.reform.offset) + if st.cores.isEmpty then 0 else 1

theorem wp_ollBody (wf : pb.WF) (orc : OracleOK env) (nd : NoDupCores env)
    (hob : ∀ l ∈ objLits o, l.var < pb.n0) (hfit : ∀ t, pb.Sol t → icost o t ≤ usizeMax) (hN : maxCost o ≤ N)
    {s0 : Slv P C} {d0 : D} {st : OllState D} (h : LInv pb env n o s0 d0 st s) (exactRef : Bool)
    (hu : Usable pb sb s) :
    wp env (ollBody fuel [] [] exactRef st) (fun r s' => match r with
      | .inl st' => LInv pb env n o s0 d0 st' s' ∧ ((∃ t, pb.Sol t) → ollMeasure o st' < ollMeasure o st)
      | .inr b => OllPost pb env n o s0 d0 b s') (GStop pb env n fuel N sb) s := by
  unfold ollBody
  rw [wp_bind]
  refine wp_ollPrepare h.inv.ones.good h.inv.ref.keys h.inv.rest ?_
  rintro ⟨i, rest⟩ hi1 hi2 hi3 hi4 hi5
  simp only at hi1 hi2 hi3 hi4 hi5 ⊢
  have href : RefOK pb o st.db i.wts st.reform.refs (st.cores.map (sliceOf st.cons)) st.reform.offset 0 [] := by
    rcases hi1 with e | e
    · rw [e]; exact h.inv.ref
    · rw [e]; exact h.inv.ref.clean
  have hones : OnesOK i st.reform.refs (st.cores.map (sliceOf st.cons)) :=
    ⟨hi3, by rw [hi2]; exact h.inv.ones.refs, by rw [hi2]; exact h.inv.ones.cores⟩
  have hrest : RestOK rest i.wts := by
    refine ⟨hi4, fun a ha => ?_, fun l w hl hw => ?_⟩
    · obtain ⟨w, -, hm⟩ := (hi5 a).1 ha
      exact List.mem_map.2 ⟨_, hm, rfl⟩
    · exact (hi5 _).2 ⟨w, hw, by rw [lit_not_not]; exact hl⟩
  rw [wp_bind, List.nil_append]
  refine wp_solveAssumpsL orc _ h.inv.io ?_ ?_ ?_ (fun e s' hh h => GStop.ofIo hu hh h)
  · intro m s1 h1 hst1 hio1 hm hcube
    simp only
    have hcg1 := h.inv.cg.same h1
    split
    · next hemp =>
      have hemp' : st.cores = [] := by simpa using hemp
      rw [hemp', List.map_nil] at href
      rw [wp_bind]
      have hnv : 0 < s1.k.vm.nextVar := by
        have := hcg1.inv.encVar
        have h2 := hcg1.n0_le
        rw [← this] at h2
        omega
      refine wp_oracleSolution hst1 hnv ?_
      have hfin : ∀ d2 s2, Keeps pb env n s1 st.db s2 d2 → s2.k.conflLimited = s1.k.conflLimited →
          wp env (do
            logRoutineEnd
            M.pure (Sum.inr (some (Assignment.ofModel m s1.k.vm.nextVar),
              { inactives := i.finalCleanup, refs := st.reform.refs, offset := st.reform.offset }, d2)))
          (fun r s' => match r with
            | .inl st' => LInv pb env n o s0 d0 st' s' ∧ ((∃ t, pb.Sol t) → ollMeasure o st' < ollMeasure o st)
            | .inr b => OllPost pb env n o s0 d0 b s') (GStop pb env n fuel N sb) s2 := by
        intro d2 s2 k2 hl2
        rw [wp_bind]
        refine wp_logEvent _ k2.io (fun s3 h3 hk3 hio3 => ?_) (fun e s' hh h' =>
          GStop.ofIo ((hu.same h1).step k2.cg k2.step (by rw [hl2, h1.lim, h.inv.lim]; simp)) hh h')
        rw [wp_pure]
        refine ⟨⟨k2.cg.same h3, (h.step.trans (h1.tstep _)).trans (k2.step.trans (h3.tstep _)), hio3⟩, ?_, ?_, ?_, ⟨m, ?_, ?_⟩, i.finalCleanup_shape⟩
        · rw [h3.lim, hl2, h1.lim]; exact h.inv.lim
        · simp only [Inactives.finalCleanup_iter]
          exact (href.step k2.step.step).clean
        · simp only [Inactives.finalCleanup_iter]
          intro l w hl
          simpa using (List.mem_filter.1 hl).2
        · exact h.inv.cg.sol hm
        · refine h.inv.cg.opt_of_false href hm fun l w hl hw => ?_
          have := (hi5 l.not).2 ⟨w, hw, by rw [lit_not_not]; exact hl⟩
          unfold cubeEval at hcube
          have := List.all_eq_true.1 hcube _ this
          rw [Lit.eval_not] at this
          simpa using this
      split
      · rw [wp_bind]
        exact wp_mono (wp_reserveOutputs wf _ hcg1 hio1) (fun _ _ h => hfin _ _ h.1 h.2.1) (fun _ _ h => h)
      · rw [wp_bind, wp_pure]
        exact hfin _ _ ⟨hcg1, TStep.refl _ _, hio1⟩ rfl
    · next hemp =>
      rw [wp_bind]
      refine wp_mono (wp_reformCores wf orc hob hfit st.cores (s := s1)
        (st := { st with reform := { st.reform with inactives := i }, rest := rest })
        ⟨hcg1, by rw [h1.lim]; exact h.inv.lim, hio1, href, hones, hrest⟩ h.slices (hu.same h1)) ?_ (fun _ _ h => h)
      rintro st2 s2 ⟨g1, g2, g3, g4, g5⟩
      rw [wp_pure]
      refine ⟨⟨by rw [g2]; exact g1, by rw [g2]; intro c hc; simp at hc, (h.step.trans (h1.tstep _)).trans g4⟩, fun hs => ?_⟩
      have := g5 hs
      simp only at this
      unfold ollMeasure
      rw [g2]
      have : st.cores.isEmpty = false := by simpa using hemp
      rw [this]
      simp
      omega
  · intro t lim core s1 horc h1 hst1 hio1 hsub himp
    simp only
    rw [wp_bind]
    refine wp_oracleCore hst1 ?_
    rw [filterBase_nil]
    split
    · next hemp =>
      have hemp' : core = [] := by simpa using hemp
      rw [wp_bind]
      refine wp_logEvent _ hio1 (fun s3 h3 hk3 hio3 => ?_) (fun e s' hh h => GStop.ofIo (hu.same h1) hh h)
      rw [wp_pure]
      refine ⟨?_, hio3, by rw [(h1.trans h3).lim]; exact h.inv.lim, _, h.inv.cg.same (h1.trans h3),
        h.step.trans ((h1.trans h3).tstep _)⟩
      rintro ⟨t, ht⟩
      obtain ⟨m, -, h5, -⟩ := h.inv.cg.ext t ht
      have := himp m h5.db
      rw [hemp'] at this
      simp [clauseEval] at this
    · rw [wp_bind]
      refine wp_mono (wp_handleCore (fuel := fuel) wf orc nd hob hfit hN
        (st := { st with reform := { st.reform with inactives := i }, rest := rest }) (s := s1)
        ⟨h.inv.cg.same h1, by rw [h1.lim]; exact h.inv.lim, hio1, href, hones, hrest⟩ h.slices
        ⟨nd _ _ _ _ _ horc hi4, by rw [h1.db]; exact himp⟩ ?_ (hu.same h1)) ?_ (fun _ _ h => h)
      · intro l hl
        obtain ⟨w, hw, hm⟩ := (hi5 _).1 (hsub l hl)
        rw [lit_not_not] at hm
        exact ⟨w, hw, hm⟩
      · rintro st2 s2 ⟨g1, g2, g3, g4⟩
        rw [wp_pure]
        refine ⟨⟨g1, g2, (h.step.trans (h1.tstep _)).trans g3⟩, fun hs => ?_⟩
        have h5 := g4 hs
        simp only at h5
        have h6 := g1.ref.total hs
        unfold ollMeasure
        split <;> split <;> omega
  · intro hl
    rw [h.inv.lim] at hl
    simp at hl

/-! ## The search -/

theorem ofObjective_wts (hc : o.isConstant = false) :
    (Reform.ofObjective o).inactives.wts = o.iter ∧ (Reform.ofObjective o).inactives.iter = o.iter ∧
    (Reform.ofObjective o).inactives.Good ∧ (Reform.ofObjective o).refs = [] ∧ (Reform.ofObjective o).offset = 0 ∧
    (Reform.ofObjective o).inactives ≠ .constant := by
  cases o with
  | weighted off lits i b =>
    simp [Reform.ofObjective, Inactives.wts, Inactives.iter, Objective.iter, Inactives.Good]
  | unweighted off w lits i b =>
    simp [Reform.ofObjective, Inactives.wts, Inactives.iter, Objective.iter, Inactives.Good]
  | constant off i b => simp [Objective.isConstant] at hc

theorem linear_wsum (t : Asg) (l : List (Lit × Nat)) : linear t l = wsum (fun l => if l.eval t = true then 1 else 0) l := by
  induction l with
  | nil => simp [linear, wsum]
  | cons p l ih =>
    obtain ⟨a, w⟩ := p
    simp only [linear, wsum, List.map_cons, List.sum_cons, Lit.eval_iff] at ih ⊢
    rw [ih]
    split <;> simp

theorem maxCost_wsum (o : Objective) : maxCost o = wsum (fun _ => 1) o.iter := by
  unfold maxCost wsum
  simp

theorem iter_fst (o : Objective) : o.iter.map Prod.fst = objLits o := by
  cases o with
  | weighted off lits i b => rfl
  | unweighted off w lits i b =>
    simp only [Objective.iter, objLits, List.map_map]
    exact (List.map_congr_left fun _ _ => rfl).trans (List.map_id lits)
  | constant off i b => rfl

/-- The invariant holds at the start. -/
theorem LInv.init {s1 : Slv P C} (hc : o.isConstant = false) (hn : (objLits o).Nodup) (hi : CG pb d s)
    (hlim : s.k.conflLimited = false) (g1 : Same s s1) (hio1 : IoInv env n s1.io) :
    LInv pb env n o s d (⟨Reform.ofObjective o, d, (Reform.ofObjective o).inactives.assumps, [], []⟩ : OllState D) s1 := by
  obtain ⟨h1, h2, h3, h4, h5, h6⟩ := ofObjective_wts hc
  refine ⟨⟨hi.same g1, by rw [g1.lim]; exact hlim, hio1, ?_, ⟨h3, ?_, ?_⟩, ?_⟩, ?_, g1.tstep d⟩
  · simp only [h1, h4, h5]
    exact RefOK.init hn (iter_fst o) (fun t => linear_wsum t _) (maxCost_wsum o)
  · simp only [h4]
    intro _ l rd hg
    simp [mapGet] at hg
  · simp
  · simp only [Inactives.assumps, h1, h2]
    refine ⟨?_, ?_, ?_⟩
    · have := nodup_map_not (l := o.iter.map Prod.fst) (by rw [iter_fst]; exact hn)
      rwa [List.map_map] at this
    · intro a ha
      obtain ⟨p, hp, rfl⟩ := List.mem_map.1 ha
      rw [lit_not_not]
      exact List.mem_map.2 ⟨p, hp, rfl⟩
    · intro l w hl _
      exact List.mem_map.2 ⟨_, hl, rfl⟩
  · intro c hc
    simp at hc

theorem wp_oll (wf : pb.WF) (orc : OracleOK env) (nd : NoDupCores env) (hc : o.isConstant = false)
    (hob : ∀ l ∈ objLits o, l.var < pb.n0) (hn : (objLits o).Nodup) (hfit : ∀ t, pb.Sol t → icost o t ≤ usizeMax)
    (hN : 2 * maxCost o + 1 ≤ N) (hi : CG pb d s) (hlim : s.k.conflLimited = false) (hio : IoInv env n s.io)
    (exactRef : Bool) (hu : Usable pb sb s) :
    wp env (oll fuel (Reform.ofObjective o) [] d exactRef) (OllPost pb env n o s d) (GStop pb env n fuel N sb) s := by
  obtain ⟨h1, h2, h3, h4, h5, h6⟩ := ofObjective_wts hc
  unfold oll
  rw [if_neg h6, wp_bind]
  refine wp_logEvent _ hio (fun s1 g1 hk1 hio1 => ?_) (fun e s' hh h => GStop.ofIo hu hh h)
  have hus : ∀ {a : OllState D} {s2 : Slv P C}, LInv pb env n o s d a s2 → Usable pb sb s2 := fun ha =>
    hu.step ha.inv.cg ha.step (by rw [ha.inv.lim]; simp)
  have hinit := LInv.init (env := env) hc hn hi hlim g1 hio1
  by_cases hs : ∃ t, pb.Sol t
  · refine wp_loop (LInv pb env n o s d) (fun st _ => ollMeasure o st) (2 * maxCost o + 1) fuel _ _ ?_ ?_ ?_ hinit
    · intro a s2 _
      simp only [ollMeasure]
      split <;> omega
    · intro a s2 ha
      refine wp_mono (wp_ollBody (fuel := fuel) (N := N) wf orc nd hob hfit (by omega) ha exactRef (hus ha)) ?_ (fun _ _ h => h)
      intro r s3 hr
      cases r with
      | inl st' => exact ⟨hr.1, hr.2 hs⟩
      | inr b => exact hr
    · intro a s2 ha hf
      exact ⟨ha.inv.io.base, fun _ => by omega⟩
  · refine wp_loop_inv (LInv pb env n o s d) fuel _ _ ?_ ?_ hinit
    · intro a s2 ha
      refine wp_mono (wp_ollBody (fuel := fuel) (N := N) wf orc nd hob hfit (by omega) ha exactRef (hus ha)) ?_ (fun _ _ h => h)
      intro r s3 hr
      cases r with
      | inl st' => exact hr.1
      | inr b => exact hr
    · intro a s2 ha
      exact ⟨ha.inv.io.base, fun h => absurd h hs⟩

end Scuttle
