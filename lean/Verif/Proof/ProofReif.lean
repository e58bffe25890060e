import Verif.Proof.ProofCut

/-!
# Lemmas on outputs of encodings in the proof
-/

set_option linter.unusedSectionVars false

namespace Scuttle

variable {objs : List Objective} {base : Assignment}

/-! ## A higher output implies a lower one -/

theorem ceilDiv_pos {a : Int} {n : Nat} (ha : 0 < a) (hn : 0 < n) : 1 ≤ LbCon.ceilDiv a n := by
  have := LbCon.le_ceilDiv a hn
  by_contra h
  have : (n : Int) * LbCon.ceilDiv a n ≤ n * 0 := Int.mul_le_mul_of_nonneg_left (by omega) (by omega)
  omega

theorem impl_same {c₁ c₂ : LbCon AnyVar} {sum : (AnyVar → Bool) → Nat} {total k k' D : Nat} {o o' : Axm AnyVar}
    (h1 : Spec.IfDef c₁ sum total k o) (h2 : Spec.OnlyIfDef c₂ sum k' o') (hk : k ≤ total) (hkk : k ≤ k') (hk' : 0 < k')
    (hD : k' - k + 1 ≤ D) (hv : o.var ≠ o'.var) :
    LbCon.Same ((c₁.add c₂).div D).saturate (.clause [o, o'.not]) := by
  let n : LbCon AnyVar := ⟨[((total : Int) - k + 1, o), ((k' : Int), o'.not)], (k' : Int) - k + 1⟩
  have hn : n.Normal := by
    constructor
    · simp only [n, List.map_cons, List.map_nil, Axm.not_var, List.nodup_cons, List.mem_singleton]
      exact ⟨hv, by simp, List.nodup_nil⟩
    · intro p hp
      simp only [n, List.mem_cons, List.not_mem_nil, or_false] at hp
      rcases hp with rfl | rfl <;> simp <;> omega
  have hs : LbCon.Same (c₁.add c₂) n := fun ρ => by
    rw [LbCon.slack_add, h1 ρ, h2 ρ, LbCon.slack_def]
    simp only [n, List.map_cons, List.map_nil, List.sum_cons, List.sum_nil, Axm.val_not]
    ring
  have hpos : 0 < D := by omega
  have hd : LbCon.Same ((c₁.add c₂).div D)
      ⟨[(LbCon.ceilDiv ((total : Int) - k + 1) D, o), (LbCon.ceilDiv k' D, o'.not)], 1⟩ := by
    refine (hs.div D).trans ((hn.div D).trans ?_)
    have : LbCon.ceilDiv ((k' : Int) - k + 1) D = 1 :=
      le_antisymm (LbCon.ceilDiv_le hpos (by omega)) (ceilDiv_pos (by omega) hpos)
    simp only [n, List.map_cons, List.map_nil, this]
    exact LbCon.Same.refl _
  have ha := ceilDiv_pos (a := (total : Int) - k + 1) (n := D) (by omega) hpos
  have hb := ceilDiv_pos (a := (k' : Int)) (n := D) (by omega) hpos
  refine hd.saturate.trans ?_
  refine (LbCon.Normal.saturate ⟨?_, ?_⟩).trans ?_
  · simp only [List.map_cons, List.map_nil, Axm.not_var, List.nodup_cons, List.mem_singleton]
    exact ⟨hv, by simp, List.nodup_nil⟩
  · intro p hp
    simp only [List.mem_cons, List.not_mem_nil, or_false] at hp
    rcases hp with rfl | rfl <;> simp <;> omega
  · unfold LbCon.clause
    simp only [List.map_cons, List.map_nil]
    rw [show min (LbCon.ceilDiv ((total : Int) - k + 1) D) (max 1 0) = 1 by omega,
      show min (LbCon.ceilDiv (k' : Int) D) (max 1 0) = 1 by omega]
    exact LbCon.Same.refl _

/-! ## Constraints that follow -/

/-- Adding constraints that follow keeps the state. -/
theorem Spec.LogState.follow {ps ps' : PStuff} (h : Spec.LogState objs base ps) (hk : Spec.Keeps ps ps')
    (hv : ps'.valueMap = ps.valueMap) (hb : ps'.bounds = ps.bounds) (hn : ps'.proof.nProofVars = ps.proof.nProofVars)
    (hl : ∀ c ∈ Spec.live ps'.proof.db, c ∈ Spec.live ps.proof.db ∨
      ((∀ ρ, (∀ d ∈ Spec.live ps.proof.db, d.Holds ρ) → c.Holds ρ) ∧ ∀ k, ¬ Spec.Mentions c (.proof k))) :
    Spec.LogState objs base ps' where
  bounds := h.bounds.mono hk hb (by rw [hn]) fun x hx => by rw [hv]; exact hx
  fresh := fun c hc k hm => by
    rw [hn]
    rcases hl c hc with hc | ⟨_, hc⟩
    · exact h.fresh c hc k hm
    · exact absurd hm (hc k)
  keys := by rw [hv]; exact h.keys
  below := by rw [hv, hn]; exact h.below
  identical := by rw [hv]; exact h.identical
  solves := fun ρ hw hm c hc => by
    rw [hv] at hw hm
    have hall := h.solves ρ hw hm
    rcases hl c hc with hc | ⟨hc, _⟩
    · exact hall c hc
    · exact hc ρ hall

theorem clauseCon_mentions {c : Clause} {v : AnyVar} (h : Spec.Mentions (clauseCon c) v) : ∃ l ∈ c, v = .solver l.var := by
  obtain ⟨p, hp, rfl⟩ := h
  unfold clauseCon LbCon.clause at hp
  obtain ⟨a, ha, rfl⟩ := List.mem_map.1 hp
  obtain ⟨l, hl, rfl⟩ := List.mem_map.1 ha
  exact ⟨l, hl, rfl⟩

/-- Lines that only derive clauses for the solver. -/
structure Derived (ord : (AnyVar → Bool) → (AnyVar → Bool) → Prop) (objs : List Objective) (base : Assignment)
    (ps ps' : PStuff) (cls : List Clause) : Prop where
  writes : Spec.Writes ord ps ps'
  keeps : Spec.Keeps ps ps'
  state : Spec.LogState objs base ps'
  values : ps'.valueMap = ps.valueMap
  certified : Spec.Certified ps ps' cls

theorem Derived.refl {ord} {ps : PStuff} (h : Spec.LogState objs base ps) : Derived ord objs base ps ps [] :=
  ⟨Spec.Writes.refl ord ps, Spec.Keeps.refl ps, h, rfl, [], by simp, rfl, by simp⟩

theorem Spec.Certified.trans {ps ps' ps'' : PStuff} {c c' : List Clause} (h : Spec.Certified ps ps' c)
    (h' : Spec.Certified ps' ps'' c') (hk : Spec.Keeps ps' ps'') : Spec.Certified ps ps'' (c ++ c') := by
  obtain ⟨n, h1, h2, h3⟩ := h
  obtain ⟨n', h4, h5, h6⟩ := h'
  refine ⟨n ++ n', by rw [h4, h1, List.append_assoc], by rw [List.map_append, h2, h5], fun x hx => ?_⟩
  rcases List.mem_append.1 hx with hx | hx
  · exact hk _ _ (h3 x hx)
  · exact h6 x hx

theorem Derived.trans {ord} {ps ps' ps'' : PStuff} {c c' : List Clause} (h : Derived ord objs base ps ps' c)
    (h' : Derived ord objs base ps' ps'' c') : Derived ord objs base ps ps'' (c ++ c') :=
  ⟨h.writes.trans h'.writes, h.keeps.trans h'.keeps, h'.state, h'.values.trans h.values,
    h.certified.trans h'.certified h'.keeps⟩

/-- A clause is derived with a constraint that is removed afterwards. -/
theorem derived_tmp {ord} {ps ps' : PStuff} (h : Spec.LogState objs base ps) {ops : Ops} {c₀ : LbCon AnyVar} {cls : Clause}
    {hints : List CId} {hs : List (LbCon AnyVar)} (h0 : ops.eval ps.proof.db = some c₀)
    (hh : hints.mapM (ConDb.find (ps.proof.db ++ [some c₀])) = some hs) (hr : Spec.Rup hs (clauseCon cls))
    (hsteps : ps'.proof.steps = ps.proof.steps ++
      [.pol ops, .rup (clauseCon cls) hints, .del [ps.proof.db.length + 1] []])
    (hdb : ps'.proof.db = (ps.proof.db ++ [some c₀] ++ [some (clauseCon cls)]).delete [ps.proof.db.length + 1])
    (hv : ps'.valueMap = ps.valueMap) (hb : ps'.bounds = ps.bounds) (hn : ps'.proof.nProofVars = ps.proof.nProofVars)
    (ha : ps'.added = ps.added ++ [(cls, ps.proof.db.length + 2)])
    (himp : ∀ ρ, (∀ d ∈ Spec.live ps.proof.db, d.Holds ρ) → (clauseCon cls).Holds ρ) :
    Derived ord objs base ps ps' [cls] := by
  have hk : Spec.Keeps ps ps' := fun i c hc => by
    have := ConDb.get_lt hc
    rw [hdb, ConDb.get_delete (by simp; omega), List.append_assoc]
    exact ConDb.get_append _ hc
  have hget : ps'.proof.db.get (ps.proof.db.length + 2) = some (clauseCon cls) := by
    rw [hdb, ConDb.get_delete (by simp)]
    have := ConDb.get_new (ps.proof.db ++ [some c₀]) (some (clauseCon cls))
    rw [List.length_append] at this
    exact this
  refine ⟨⟨_, hsteps, ⟨?_, ⟨hs, ?_, hr⟩, ?_, trivial⟩, ?_⟩, hk, h.follow hk hv hb hn ?_, hv, [_], ha, rfl, ?_⟩
  · show (ops.eval ps.proof.db).isSome
    rw [h0]; rfl
  · show hints.mapM (ConDb.find (ps.proof.db ++ [ops.eval ps.proof.db])) = _
    rw [h0]; exact hh
  · intro i hi
    cases List.mem_singleton.1 hi
    show (ConDb.get (ps.proof.db ++ [ops.eval ps.proof.db] ++ [some (clauseCon cls)]) _).isSome
    rw [h0, ConDb.get_append _ (ConDb.get_new _ _)]; rfl
  · rw [hdb]
    show _ = ConDb.delete (ps.proof.db ++ [ops.eval ps.proof.db] ++ [some (clauseCon cls)]) _
    rw [h0]
  · intro c hc
    obtain ⟨i, hi⟩ := get_of_mem_live hc
    by_cases h2 : i = ps.proof.db.length + 2
    · subst h2
      rw [hget] at hi
      cases hi
      exact Or.inr ⟨himp, fun k hm => by obtain ⟨l, _, he⟩ := clauseCon_mentions hm; cases he⟩
    · left
      by_cases h1 : i ∈ [ps.proof.db.length + 1]
      · rw [hdb, ConDb.get_deleted h1] at hi; cases hi
      · rw [hdb, ConDb.get_delete h1] at hi
        have hlt := ConDb.get_lt hi
        simp only [List.length_append, List.length_cons, List.length_nil] at hlt
        rw [List.mem_singleton] at h1
        rw [List.append_assoc, ConDb.get_append_le _ (by omega)] at hi
        exact mem_live_of_get hi
  · intro x hx
    cases List.mem_singleton.1 hx
    exact hget

/-- A clause is derived from constraints of the proof. -/
theorem derived_rup {ord} {ps ps' : PStuff} (h : Spec.LogState objs base ps) {cls : Clause} {hints : List CId}
    {hs : List (LbCon AnyVar)} (hh : hints.mapM ps.proof.db.find = some hs) (hr : Spec.Rup hs (clauseCon cls))
    (hsteps : ps'.proof.steps = ps.proof.steps ++ [.rup (clauseCon cls) hints])
    (hdb : ps'.proof.db = ps.proof.db ++ [some (clauseCon cls)])
    (hv : ps'.valueMap = ps.valueMap) (hb : ps'.bounds = ps.bounds) (hn : ps'.proof.nProofVars = ps.proof.nProofVars)
    (ha : ps'.added = ps.added ++ [(cls, ps.proof.db.length + 1)])
    (himp : ∀ ρ, (∀ d ∈ Spec.live ps.proof.db, d.Holds ρ) → (clauseCon cls).Holds ρ) :
    Derived ord objs base ps ps' [cls] := by
  have hk : Spec.Keeps ps ps' := fun i c hc => by
    rw [hdb]; exact ConDb.get_append _ hc
  refine ⟨⟨_, hsteps, ⟨⟨hs, hh, hr⟩, trivial⟩, hdb⟩, hk, h.follow hk hv hb hn ?_, hv, [_], ha, rfl, ?_⟩
  · intro c hc
    rw [hdb, live_append] at hc
    rcases hc with hc | rfl
    · exact Or.inl hc
    · exact Or.inr ⟨himp, fun k hm => by obtain ⟨l, _, he⟩ := clauseCon_mentions hm; cases he⟩
  · intro x hx
    cases List.mem_singleton.1 hx
    rw [hdb]
    exact ConDb.get_new _ _

/-! ## Definition of a reification literal -/

theorem objSum_update_solver {o : Objective} {r : Nat} (h : ∀ p ∈ o.iter, p.1.var ≠ r) (ρ : AnyVar → Bool) (b : Bool) :
    Spec.objSum o (Function.update ρ (.solver r) b) = Spec.objSum o ρ := by
  unfold Spec.objSum
  generalize o.iter = l at h
  induction l with
  | nil => rfl
  | cons p l ih =>
    simp only [Spec.linear]
    rw [ih fun q hq => h q (List.mem_cons_of_mem _ hq)]
    have : Spec.LitTrue (Spec.solverAsg (Function.update ρ (.solver r) b)) p.1 ↔ Spec.LitTrue (Spec.solverAsg ρ) p.1 := by
      unfold Spec.LitTrue Spec.solverAsg
      rw [Function.update_of_ne]
      intro he
      exact h p (List.mem_cons_self ..) (AnyVar.solver.inj he)
    simp only [this]

theorem paretoOrder_update {r : Nat} (h : ∀ o ∈ objs, ∀ p ∈ o.iter, p.1.var ≠ r) (ρ : AnyVar → Bool) (b : Bool) :
    Spec.ParetoOrder objs (Function.update ρ (.solver r) b) ρ := by
  unfold Spec.ParetoOrder Spec.WeaklyDominates
  rw [List.forall₂_map_left_iff, List.forall₂_map_right_iff, List.forall₂_same]
  intro o ho
  apply objValue_le
  rw [objSum_update_solver (h o ho)]

theorem Axm.val_update {V : Type} [DecidableEq V] {a : Axm V} {v : V} (h : a.var ≠ v) (ρ : V → Bool) (b : Bool) :
    a.val (Function.update ρ v b) = a.val ρ := by
  unfold Axm.val; rw [Function.update_of_ne h]

/-- The two definitions of a reification literal are accepted and keep the state. -/
theorem reif_defs {ps ps' : PStuff} (h : Spec.LogState objs base ps) {r : Nat} (hf : Spec.FreshVar objs ps r)
    {x : Axm AnyVar} (hx : x.var ≠ .solver r) (hxp : ∀ k, x.var = .proof k → k < ps.proof.nProofVars)
    {c₁ c₂ : LbCon AnyVar}
    (h1 : ∀ ρ, c₁.Holds ρ ↔ (ρ (.solver r) = true → x.val ρ = 1))
    (h2 : ∀ ρ, c₂.Holds ρ ↔ (x.val ρ = 1 → ρ (.solver r) = true))
    (m1 : ∀ v, Spec.Mentions c₁ v → v = .solver r ∨ v = x.var) (m2 : ∀ v, Spec.Mentions c₂ v → v = .solver r ∨ v = x.var)
    {key : Axm AnyVar} {val : ProofVal} (hkey : key.var = .solver r)
    (hval : ∀ ρ, (∀ c ∈ Spec.live ps.proof.db, c.Holds ρ) → Spec.Meaning objs [(key, val)] ρ →
      (ρ (.solver r) = true ↔ x.val ρ = 1))
    (hid : ∀ that, val = .identical that → that.var ≠ r ∧ ∀ p ∈ ps.valueMap, p.1.var ≠ .solver that.var)
    (hsteps : ps'.proof.steps = ps.proof.steps ++
      [.red c₁ [⟨.solver r, true⟩] [], .red c₂ [⟨.solver r, false⟩] []])
    (hdb : ps'.proof.db = ps.proof.db ++ [some c₁] ++ [some c₂])
    (hv : ps'.valueMap = ps.valueMap ++ [(key, val)]) (hb : ps'.bounds = ps.bounds)
    (hn : ps'.proof.nProofVars = ps.proof.nProofVars) :
    Spec.Writes (Spec.ParetoOrder objs) ps ps' ∧ Spec.Keeps ps ps' ∧ Spec.LogState objs base ps' := by
  have hk : Spec.Keeps ps ps' := fun i c hc => by
    rw [hdb, List.append_assoc]; exact ConDb.get_append _ hc
  have hold : ∀ ρ b, (∀ d ∈ Spec.live ps.proof.db, d.Holds ρ) →
      ∀ d ∈ Spec.live ps.proof.db, d.Holds (Function.update ρ (.solver r) b) := by
    intro ρ b hρ d hd
    refine (LbCon.holds_congr fun v hm => ?_).1 (hρ d hd)
    rw [Function.update_of_ne]
    rintro rfl; exact hf.db d hd hm
  refine ⟨⟨_, hsteps, ⟨?_, ?_, trivial⟩, hdb⟩, hk, ?_⟩
  · intro ρ hρ _
    rw [subst_single]
    refine ⟨hold ρ _ hρ, (h1 _).2 fun he => ?_, paretoOrder_update hf.objs ρ _⟩
    simp at he
  · intro ρ hρ hnot
    rw [subst_single]
    rw [h2] at hnot
    have hx1 : x.val ρ = 1 := by by_contra hc; exact hnot fun he => absurd he hc
    refine ⟨fun d hd => ?_, (h2 _).2 fun _ => by simp, paretoOrder_update hf.objs ρ _⟩
    rcases (live_append _ _).1 hd with hd | rfl
    · exact hold ρ _ (fun d' hd' => hρ d' ((live_append _ _).2 (Or.inl hd'))) d hd
    · exact (h1 _).2 fun _ => by rw [Axm.val_update hx]; exact hx1
  · have hlive : ∀ c ∈ Spec.live ps'.proof.db, c ∈ Spec.live ps.proof.db ∨ c = c₁ ∨ c = c₂ := by
      intro c hc
      rw [hdb, live_append, live_append, or_assoc] at hc
      exact hc
    refine ⟨h.bounds.mono hk hb (by rw [hn]) fun y hy => (by rw [hv]; exact List.mem_append_left _ hy), ?_, ?_, ?_, ?_, ?_⟩
    · intro c hc k hm
      rw [hn]
      have hmm : ∀ v, v = AnyVar.solver r ∨ v = x.var → v = .proof k → k < ps.proof.nProofVars := by
        rintro v (rfl | rfl) he
        · cases he
        · exact hxp k he
      rcases hlive c hc with hc | rfl | rfl
      · exact h.fresh c hc k hm
      · exact hmm _ (m1 _ hm) rfl
      · exact hmm _ (m2 _ hm) rfl
    · rw [hv, List.map_append, List.nodup_append]
      refine ⟨h.keys, by simp, ?_⟩
      intro a ha b hb' he
      obtain ⟨p, hp, rfl⟩ := List.mem_map.1 ha
      simp only [List.map_cons, List.map_nil, List.mem_singleton] at hb'
      exact hf.keys p hp (by rw [he, hb', hkey])
    · intro p hp k hpk
      rw [hv] at hp
      rw [hn]
      rcases List.mem_append.1 hp with hp | hp
      · exact h.below p hp k hpk
      · cases List.mem_singleton.1 hp
        rw [hkey] at hpk; cases hpk
    · intro this that hm p hp
      rw [hv] at hm hp
      rcases List.mem_append.1 hm with hm | hm <;> rcases List.mem_append.1 hp with hp' | hp'
      · exact h.identical this that hm p hp'
      · cases List.mem_singleton.1 hp'
        rw [hkey]
        intro he
        exact hf.that this that hm (AnyVar.solver.inj he).symm
      · obtain ⟨_, rfl⟩ := Prod.mk.inj (List.mem_singleton.1 hm)
        exact (hid that rfl).2 p hp'
      · obtain ⟨_, rfl⟩ := Prod.mk.inj (List.mem_singleton.1 hm)
        cases List.mem_singleton.1 hp'
        rw [hkey]
        intro he
        exact (hid that rfl).1 (AnyVar.solver.inj he).symm
    · intro ρ hw hm c hc
      rw [hv] at hw hm
      let b := decide (base[r]? = some (TV.ofBool true))
      have hall' : ∀ d ∈ Spec.live ps.proof.db, d.Holds (Function.update ρ (.solver r) b) := by
        refine h.solves _ ?_ ?_
        · intro v b' hb' hkeys
          by_cases he : v = r
          · subst he
            rw [Function.update_self]
            show decide (base[v]? = some (TV.ofBool true)) = b'
            rw [hb']
            cases b' <;> simp [TV.ofBool]
          · rw [Function.update_of_ne (fun h' => he (AnyVar.solver.inj h'))]
            refine hw v b' hb' fun p hp => ?_
            rcases List.mem_append.1 hp with hp | hp
            · exact hkeys p hp
            · cases List.mem_singleton.1 hp
              rw [hkey]
              intro h'
              exact he (AnyVar.solver.inj h').symm
        · refine ⟨fun this that ht => ?_, fun this idx value ht o ho => ?_⟩
          · rw [Axm.val_update (hf.keys _ ht), Axm.val_update]
            · exact hm.1 _ _ (List.mem_append_left _ ht)
            · intro he
              exact hf.that this that ht (AnyVar.solver.inj he)
          · rw [Axm.val_update (hf.keys _ ht), objSum_update_solver (hf.objs o (List.mem_of_getElem? ho))]
            exact hm.2 _ _ _ (List.mem_append_left _ ht) o ho
      have hall : ∀ d ∈ Spec.live ps.proof.db, d.Holds ρ := by
        intro d hd
        have := hold _ (ρ (.solver r)) hall' d hd
        rw [Function.update_idem, Function.update_eq_self] at this
        exact this
      have hiff := hval ρ hall ⟨fun t t' ht => hm.1 t t' (List.mem_append_right _ ht),
        fun t i v ht => hm.2 t i v (List.mem_append_right _ ht)⟩
      rcases hlive c hc with hc | rfl | rfl
      · exact hall c hc
      · exact (h1 ρ).2 hiff.1
      · exact (h2 ρ).2 hiff.2

/-! ## Further assumptions -/

theorem toAxm_not_val (l : Lit) (ρ : AnyVar → Bool) : (toAxm l.not).val ρ = 1 - (toAxm l).val ρ := by
  rw [toAxm_not, Axm.val_not]

theorem holds_pair (x y : Axm AnyVar) (ρ : AnyVar → Bool) :
    (LbCon.clause [x, y]).Holds ρ ↔ x.val ρ = 1 ∨ y.val ρ = 1 := by
  rw [LbCon.holds_clause]
  simp only [Axm.val_eq_one]
  simp

theorem holds_clauseCon_pair (x y : Lit) (ρ : AnyVar → Bool) :
    (clauseCon [x, y]).Holds ρ ↔ (toAxm x).val ρ = 1 ∨ (toAxm y).val ρ = 1 := holds_pair _ _ _

theorem val_cases (x : Axm AnyVar) (ρ : AnyVar → Bool) : x.val ρ = 0 ∨ x.val ρ = 1 := by
  have h1 := Axm.val_nonneg ρ x
  have h2 := Axm.val_le_one ρ x
  omega

/-- From `¬r ∨ x` and a constraint that forces `x` to be false if `a` is, the clause `¬r ∨ a` follows by unit propagation. -/
theorem rup_through {hs : List (LbCon AnyVar)} {r a : Lit} {x : Axm AnyVar} {d : LbCon AnyVar}
    (h1 : LbCon.clause [toAxm r.not, x] ∈ hs) (h2 : d ∈ hs)
    (h3 : ∀ ρ, (toAxm a).val ρ = 0 → x.val ρ = 1 → ¬ d.Holds ρ) : Spec.Rup hs (clauseCon [r.not, a]) := by
  unfold Spec.Rup
  have hfalse : ∀ (y : Axm AnyVar) (ρ : AnyVar → Bool), ρ y.not.var = !y.not.neg ↔ y.val ρ = 0 := by
    intro y ρ
    rw [← Axm.val_eq_one, Axm.val_not]; omega
  refine Spec.Conflicts.forced _ (List.mem_cons_self ..) [(toAxm r.not).not, (toAxm a).not] ?_ fun σ₁ g1 => ?_
  · intro ρ _ hh y hy
    rw [LbCon.holds_neg, holds_clauseCon_pair, not_or] at hh
    have c1 := val_cases (toAxm r.not) ρ
    have c2 := val_cases (toAxm a) ρ
    rcases List.mem_cons.1 hy with rfl | hy
    · rw [hfalse]; omega
    · cases List.mem_singleton.1 hy
      rw [hfalse]; omega
  · refine Spec.Conflicts.forced _ (List.mem_cons_of_mem _ h1) [x] ?_ fun σ₂ g2 => ?_
    · intro ρ hr hh y hy
      cases List.mem_singleton.1 hy
      have := (g1 ρ hr).2 _ (List.mem_cons_self ..)
      rw [hfalse] at this
      rw [holds_pair] at hh
      rw [← Axm.val_eq_one]
      omega
    · refine .conflict (List.mem_cons_of_mem _ h2) fun ρ hr hh => ?_
      obtain ⟨g3, g4⟩ := g2 ρ hr
      have g5 := (g1 ρ g3).2 (toAxm a).not (by simp)
      rw [hfalse] at g5
      exact h3 ρ g5 ((Axm.val_eq_one ρ x).2 (g4 x (List.mem_singleton.2 rfl))) hh

theorem through_implied {cs : List (LbCon AnyVar)} {r a : Lit} {x : Axm AnyVar} {d : LbCon AnyVar}
    (h1 : LbCon.clause [toAxm r.not, x] ∈ cs) (h2 : ∀ ρ, (∀ c ∈ cs, c.Holds ρ) → d.Holds ρ)
    (h3 : ∀ ρ, (toAxm a).val ρ = 0 → x.val ρ = 1 → ¬ d.Holds ρ) {ρ : AnyVar → Bool} (hρ : ∀ c ∈ cs, c.Holds ρ) :
    (clauseCon [r.not, a]).Holds ρ := by
  rw [holds_clauseCon_pair]
  have c1 := val_cases (toAxm a) ρ
  have := hρ _ h1
  rw [holds_pair] at this
  rcases this with h | h
  · exact Or.inl h
  · rcases c1 with c1 | c1
    · exact absurd (h2 ρ hρ) (h3 ρ c1 h)
    · exact Or.inr c1

theorem Spec.ReifContract.mono {ps ps' : PStuff} {enc : EncView} {obj : Objective} {value : Nat}
    {encSum : (AnyVar → Bool) → Nat} {offset total : Nat} (h : Spec.ReifContract ps.proof.db enc obj value encSum offset total)
    (hk : Spec.Keeps ps ps') : Spec.ReifContract ps'.proof.db enc obj value encSum offset total where
  range := h.range
  higher := h.higher
  ifDef := fun val olit defs d h1 h2 => by
    obtain ⟨c, h3, h4⟩ := h.ifDef val olit defs d h1 h2
    exact ⟨c, hk _ _ h3, h4⟩
  onlyIfDef := fun val olit defs d h1 h2 => by
    obtain ⟨c, h3, h4⟩ := h.onlyIfDef val olit defs d h1 h2
    exact ⟨c, hk _ _ h3, h4⟩
  distinct := h.distinct
  part := h.part

/-- The loop over further assumptions with an empty buffer. -/
theorem reifyFurther_spec {ord} {debug : Bool} {enc : EncView} {obj : Objective} {reif a₀ : Lit}
    {value ifDef firstIfDef : Nat} {encSum : (AnyVar → Bool) → Nat} {offset total : Nat} {defs₀ : SemDefs}
    (hd0 : enc.details value = some (a₀.not, defs₀)) (hif : defs₀.ifDef = some firstIfDef) :
    ∀ {as : List Lit} {val : Nat} {ps ps' : PStuff}, Spec.LogState objs base ps →
      Spec.ReifContract ps.proof.db enc obj value encSum offset total →
      ps.proof.db.get ifDef = some (clauseCon [reif.not, a₀]) → value ≤ val →
      Spec.OutputsFrom enc (enc.nextHigher val) as →
      reifyFurther debug enc reif value ifDef firstIfDef val as ps = some ps' →
      Derived ord objs base ps ps' (as.map fun a => [reif.not, a]) ∧ ps'.proof.nProofVars = ps.proof.nProofVars
  | [], val, ps, ps', hl, _, _, _, _, h => by
    simp only [reifyFurther, Option.some.injEq] at h
    subst h
    exact ⟨Derived.refl hl, rfl⟩
  | a :: as, val, ps, ps', hl, K, hget, hle, ⟨⟨defs, hd⟩, ho⟩, h => by
    simp only [reifyFurther] at h
    rw [hd] at h
    simp only [Option.bind_eq_bind, Option.bind_some] at h
    split at h
    · cases h
    · obtain ⟨only, hon, h⟩ := Option.bind_eq_some_iff.1 h
      have hlt := K.higher val
      have hrange := K.range
      obtain ⟨c₁, g1, g2⟩ := K.ifDef _ _ _ _ hd0 hif
      obtain ⟨c₂, g3, g4⟩ := K.onlyIfDef _ _ _ _ hd hon
      have hne := K.distinct _ _ _ _ _ _ (show value < enc.nextHigher val by omega) hd0 hd
      have hsame := impl_same (D := enc.nextHigher val - value + 1) g2 g4 (by omega) (by omega) (by omega) (by omega)
        (fun he => hne (AnyVar.solver.inj he))
      have heval : (implOps firstIfDef only (enc.nextHigher val - value + 1)).eval ps.proof.db =
          some ((c₁.add c₂).div (enc.nextHigher val - value + 1)).saturate := by
        unfold implOps
        simp only [Ops.eval, ConDb.find_abs, g1, g3, Option.bind_eq_bind, Option.bind_some, Option.map_some]
        simp
      generalize hc0 : ((c₁.add c₂).div (enc.nextHigher val - value + 1)).saturate = c₀ at *
      have hconf : ∀ ρ, (toAxm a).val ρ = 0 → (toAxm a₀).val ρ = 1 → ¬ c₀.Holds ρ := by
        intro ρ h1 h2
        rw [hsame.holds, holds_pair, Axm.val_not, toAxm_not_val, toAxm_not_val]
        omega
      have hmem : LbCon.clause [toAxm reif.not, toAxm a₀] ∈ Spec.live ps.proof.db := mem_live_of_get hget
      have himp : ∀ ρ, (∀ d ∈ Spec.live ps.proof.db, d.Holds ρ) → c₀.Holds ρ := by
        intro ρ hρ
        rw [← hc0]
        have : 0 < enc.nextHigher val - value + 1 := by omega
        exact LbCon.holds_saturate (LbCon.holds_div
          (LbCon.holds_add (hρ _ (mem_live_of_get g1)) (hρ _ (mem_live_of_get g3))) this)
      have hstep := derived_tmp (ord := ord) hl (ops := implOps firstIfDef only (enc.nextHigher val - value + 1))
        (cls := [reif.not, a]) (hints := [.abs (ps.proof.db.length + 1), .abs ifDef])
        (hs := [c₀, clauseCon [reif.not, a₀]]) heval
        (by simp [ConDb.find_abs, ConDb.get_new, ConDb.get_append _ hget])
        (rup_through (x := toAxm a₀) (d := c₀) (by simp [clauseCon]) (by simp) hconf)
        (ps' := (((ps.push (.pol (implOps firstIfDef only (enc.nextHigher val - value + 1)))).2.push
          (.rup (clauseCon [reif.not, a]) [.abs (ps.proof.db.length + 1), .abs ifDef])).2.addCert [reif.not, a]
            (ps.proof.db.length + 2)).write (.del [ps.proof.db.length + 1] []))
        (by simp [PStuff.push, PStuff.write, PStuff.addCert, Pf.push, Pf.write])
        (by simp [PStuff.push, PStuff.write, PStuff.addCert, Pf.push, Pf.write, ProofStep.apply, heval])
        rfl rfl rfl rfl
        (fun ρ hρ => through_implied hmem himp hconf hρ)
      have hid : (ps.push (.pol (implOps firstIfDef only (enc.nextHigher val - value + 1)))).1 = ps.proof.db.length + 1 := rfl
      have hid2 : ((ps.push (.pol (implOps firstIfDef only (enc.nextHigher val - value + 1)))).2.push
          (.rup (clauseCon [reif.not, a]) [.abs (ps.proof.db.length + 1), .abs ifDef])).1 = ps.proof.db.length + 2 := by
        simp [PStuff.push, Pf.push, Pf.nextId, Pf.write, ProofStep.apply]
      simp only [hid, hid2] at h
      obtain ⟨q1, q2⟩ := reifyFurther_spec hd0 hif hstep.state (K.mono hstep.keeps) (hstep.keeps _ _ hget) (by omega) ho h
      exact ⟨hstep.trans q1, q2⟩

theorem linear_ge {l : List (Lit × Nat)} {a : Asg} {x : Lit} {w : Nat} (hm : (x, w) ∈ l) (hx : Spec.LitTrue a x) :
    w ≤ Spec.linear a l := by
  induction l with
  | nil => cases hm
  | cons p l ih =>
    simp only [Spec.linear]
    rcases List.mem_cons.1 hm with rfl | hm
    · rw [if_pos hx]; omega
    · have := ih hm
      omega

/-- The loop over assumptions with a buffer. -/
theorem reifyBuffered_spec {ord} {debug : Bool} {enc : EncView} {obj : Objective} {reif : Lit} {k : Nat}
    {value ifDef def₁ : Nat} {encSum : (AnyVar → Bool) → Nat} {offset total : Nat} (hbuf : enc.bufferEmpty = false) :
    ∀ {as : List Lit} {val : Nat} {ps ps' : PStuff}, Spec.LogState objs base ps →
      Spec.ReifContract ps.proof.db enc obj value encSum offset total →
      ps.proof.db.get ifDef = some (.clause [toAxm reif.not, (⟨.proof k, false⟩ : Axm AnyVar).not]) →
      ps.proof.db.get def₁ = some (boundDef₁ obj value (.proof k)) → value ≤ val →
      Spec.BufferedFrom enc obj value val as →
      reifyBuffered debug enc reif ifDef def₁ val as ps = some ps' →
      Derived ord objs base ps ps' (as.map fun a => [reif.not, a]) ∧ ps'.proof.nProofVars = ps.proof.nProofVars
  | [], val, ps, ps', hl, _, _, _, _, _, h => by
    simp only [reifyBuffered, Option.some.injEq] at h
    subst h
    exact ⟨Derived.refl hl, rfl⟩
  | a :: as, val, ps, ps', hl, K, hget, hget1, hle, ⟨olit, defs, hd, hcase⟩, h => by
    simp only [reifyBuffered] at h
    rw [hd] at h
    simp only [Option.bind_eq_bind, Option.bind_some] at h
    have hmem := mem_live_of_get hget
    have hx : ∀ ρ : AnyVar → Bool, (⟨.proof k, false⟩ : Axm AnyVar).not.val ρ =
        1 - (⟨.proof k, false⟩ : Axm AnyVar).val ρ := fun ρ => Axm.val_not ρ _
    rcases hcase with ⟨hlt, ⟨w, hw, hin⟩, ho⟩ | ⟨hlt, hol, ho⟩
    · rw [if_pos hlt] at h
      have hconf : ∀ ρ, (toAxm a).val ρ = 0 → (⟨.proof k, false⟩ : Axm AnyVar).not.val ρ = 1 →
          ¬ (boundDef₁ obj value (.proof k)).Holds ρ := by
        intro ρ h1 h2
        rw [hx] at h2
        rw [LbCon.holds_iff, boundDef₁_slack, show (⟨.proof k, false⟩ : Axm AnyVar).val ρ = 0 by omega]
        have h3 : Spec.LitTrue (Spec.solverAsg ρ) a.not := by
          have := toAxm_val ρ a.not
          rw [toAxm_not_val, h1] at this
          by_contra hc
          rw [if_neg hc] at this
          omega
        have h4 : w ≤ Spec.objSum obj ρ := linear_ge hin h3
        omega
      have hstep := derived_rup (ord := ord) hl (cls := [reif.not, a]) (hints := [.abs ifDef, .abs def₁])
        (hs := [.clause [toAxm reif.not, (⟨.proof k, false⟩ : Axm AnyVar).not], boundDef₁ obj value (.proof k)])
        (by simp [ConDb.find_abs, hget, hget1])
        (rup_through (x := (⟨.proof k, false⟩ : Axm AnyVar).not) (d := boundDef₁ obj value (.proof k)) (by simp) (by simp) hconf)
        (ps' := (ps.push (.rup (clauseCon [reif.not, a]) [.abs ifDef, .abs def₁])).2.addCert [reif.not, a]
            (ps.proof.db.length + 1))
        rfl rfl rfl rfl rfl rfl
        (fun ρ hρ => through_implied hmem (fun ρ hρ => hρ _ (mem_live_of_get hget1)) hconf hρ)
      obtain ⟨q1, q2⟩ := reifyBuffered_spec hbuf hstep.state (K.mono hstep.keeps) (hstep.keeps _ _ hget)
        (hstep.keeps _ _ hget1) hle ho h
      exact ⟨hstep.trans q1, q2⟩
    · rw [if_neg hlt] at h
      split at h
      · cases h
      · obtain ⟨only, hon, h⟩ := Option.bind_eq_some_iff.1 h
        obtain ⟨c₂, g3, g4⟩ := K.onlyIfDef _ _ _ _ hd hon
        obtain ⟨hoff, hpart⟩ := K.part hbuf
        have heval : (Ops.add (.id (.abs def₁)) (.id (.abs only))).eval ps.proof.db =
            some ((boundDef₁ obj value (.proof k)).add c₂) := by
          simp only [Ops.eval, ConDb.find_abs, hget1, g3, Option.bind_eq_bind, Option.bind_some]
        have hconf : ∀ ρ, (toAxm a).val ρ = 0 → (⟨.proof k, false⟩ : Axm AnyVar).not.val ρ = 1 →
            ¬ ((boundDef₁ obj value (.proof k)).add c₂).Holds ρ := by
          intro ρ h1 h2
          rw [hx] at h2
          have h5 : (toAxm olit).val ρ = 1 := by
            have := toAxm_not_val olit ρ
            rw [hol, h1] at this
            omega
          rw [LbCon.holds_iff, LbCon.slack_add, boundDef₁_slack, g4, h5,
            show (⟨.proof k, false⟩ : Axm AnyVar).val ρ = 0 by omega]
          have := hpart ρ
          subst hoff
          simp only [Nat.sub_zero]
          omega
        have hstep := derived_tmp (ord := ord) hl (ops := Ops.add (.id (.abs def₁)) (.id (.abs only)))
          (cls := [reif.not, a]) (hints := [.abs ifDef, .abs (ps.proof.db.length + 1)])
          (hs := [.clause [toAxm reif.not, (⟨.proof k, false⟩ : Axm AnyVar).not], (boundDef₁ obj value (.proof k)).add c₂])
          heval
          (by simp [ConDb.find_abs, ConDb.get_new, ConDb.get_append _ hget])
          (rup_through (x := (⟨.proof k, false⟩ : Axm AnyVar).not) (d := (boundDef₁ obj value (.proof k)).add c₂) (by simp) (by simp)
            hconf)
          (ps' := (((ps.push (.pol (Ops.add (.id (.abs def₁)) (.id (.abs only))))).2.push
            (.rup (clauseCon [reif.not, a]) [.abs ifDef, .abs (ps.proof.db.length + 1)])).2.write
              (.del [ps.proof.db.length + 1] [])).addCert [reif.not, a] (ps.proof.db.length + 2))
          (by simp [PStuff.push, PStuff.write, PStuff.addCert, Pf.push, Pf.write])
          (by simp [PStuff.push, PStuff.write, PStuff.addCert, Pf.push, Pf.write, ProofStep.apply, heval])
          rfl rfl rfl rfl
          (fun ρ hρ => through_implied hmem
            (fun ρ hρ => LbCon.holds_add (hρ _ (mem_live_of_get hget1)) (hρ _ (mem_live_of_get g3))) hconf hρ)
        have hid : (ps.push (.pol (Ops.add (.id (.abs def₁)) (.id (.abs only))))).1 = ps.proof.db.length + 1 := rfl
        have hid2 : ((ps.push (.pol (Ops.add (.id (.abs def₁)) (.id (.abs only))))).2.push
            (.rup (clauseCon [reif.not, a]) [.abs ifDef, .abs (ps.proof.db.length + 1)])).1 = ps.proof.db.length + 2 := by
          simp [PStuff.push, Pf.push, Pf.nextId, Pf.write, ProofStep.apply]
        simp only [hid, hid2] at h
        have hlt' := K.higher val
        obtain ⟨q1, q2⟩ := reifyBuffered_spec hbuf hstep.state (K.mono hstep.keeps) (hstep.keeps _ _ hget)
          (hstep.keeps _ _ hget1) (by omega) ho h
        exact ⟨hstep.trans q1, q2⟩

theorem getObjBound_freshVar {ps ps' : PStuff} {obj : Objective} {value : Nat} {d : Axm AnyVar × Nat × Nat} {r : Nat}
    (ho : obj ∈ objs) (hf : Spec.FreshVar objs ps r) (he : getObjBound value obj ps = (d, ps')) :
    Spec.FreshVar objs ps' r := by
  have hst := getObjBound_state value obj ps
  rw [he] at hst
  rcases hst with hst | ⟨hv, _, hdb⟩
  · rw [show ps' = ps from hst]; exact hf
  · replace hv : ps'.valueMap = _ := hv
    replace hdb : ps'.proof.db = _ := hdb
    refine ⟨fun c hc hm => ?_, hf.objs, fun p hp => ?_, fun this that hm => ?_⟩
    · rw [hdb, live_append, live_append] at hc
      rcases hc with (hc | rfl) | rfl
      · exact hf.db c hc hm
      · obtain ⟨p, hp, hm⟩ := hm
        unfold boundDef₁ at hp
        simp only [List.mem_append, List.mem_map, List.mem_singleton] at hp
        rcases hp with ⟨q, hq, rfl⟩ | rfl
        · exact hf.objs obj ho q hq (AnyVar.solver.inj hm)
        · cases hm
      · obtain ⟨p, hp, hm⟩ := hm
        unfold boundDef₂ at hp
        simp only [List.mem_append, List.mem_map, List.mem_singleton] at hp
        rcases hp with ⟨q, hq, rfl⟩ | rfl
        · exact hf.objs obj ho q hq (AnyVar.solver.inj hm)
        · cases hm
    · rw [hv] at hp
      rcases List.mem_append.1 hp with hp | hp
      · exact hf.keys p hp
      · cases List.mem_singleton.1 hp
        exact fun he => by cases he
    · rw [hv] at hm
      rcases List.mem_append.1 hm with hm | hm
      · exact hf.that this that hm
      · cases List.mem_singleton.1 hm

/-! ## What is remembered -/

theorem mapGet_insert {α β} [DecidableEq α] (k k' : α) (v : β) (m : List (α × β)) :
    mapGet k' (mapInsert k v m) = if k' = k then some v else mapGet k' m := by
  induction m with
  | nil =>
    simp only [mapInsert, mapGet]
    by_cases h : k' = k
    · subst h; simp
    · rw [if_neg (Ne.symm h), if_neg h]
  | cons p m ih =>
    obtain ⟨a, b⟩ := p
    by_cases ha : a = k
    · subst ha
      simp only [mapInsert, if_true, mapGet]
      by_cases h : k' = a
      · subst h; simp
      · simp only [if_neg (Ne.symm h), if_neg h]
    · simp only [mapInsert, if_neg ha, mapGet, ih]
      by_cases h : a = k'
      · subst h; simp [ha]
      · simp only [if_neg h]

theorem getObjBound_remembered (value : Nat) (obj : Objective) (ps : PStuff) :
    mapGet (obj.idx, value) (getObjBound value obj ps).2.bounds = some (getObjBound value obj ps).1 := by
  cases hm : mapGet (obj.idx, value) ps.bounds with
  | some d => unfold getObjBound; rw [hm]; exact hm
  | none =>
    unfold getObjBound; rw [hm]
    simp only
    rw [mapGet_insert, if_pos rfl]

theorem getObjBound_bounds {value : Nat} {obj : Objective} {ps : PStuff} {k : Nat × Nat} {d : Axm AnyVar × Nat × Nat}
    (h : mapGet k ps.bounds = some d) : mapGet k (getObjBound value obj ps).2.bounds = some d := by
  cases hm : mapGet (obj.idx, value) ps.bounds with
  | some d => unfold getObjBound; rw [hm]; exact h
  | none =>
    unfold getObjBound; rw [hm]
    simp only
    rw [mapGet_insert, if_neg]
    · exact h
    · rintro rfl; rw [hm] at h; cases h

theorem reifyFurther_frame {debug : Bool} {enc : EncView} {reif : Lit} {value ifDef firstIfDef : Nat} :
    ∀ {as : List Lit} {val : Nat} {ps ps' : PStuff},
      reifyFurther debug enc reif value ifDef firstIfDef val as ps = some ps' →
      ps'.valueMap = ps.valueMap ∧ ps'.bounds = ps.bounds
  | [], _, _, _, h => by
    simp only [reifyFurther, Option.some.injEq] at h
    subst h; exact ⟨rfl, rfl⟩
  | a :: as, val, ps, ps', h => by
    simp only [reifyFurther] at h
    obtain ⟨⟨olit, sems⟩, _, h⟩ := Option.bind_eq_some_iff.1 h
    simp only at h
    split at h
    · cases h
    · obtain ⟨only, _, h⟩ := Option.bind_eq_some_iff.1 h
      have q := reifyFurther_frame h
      exact q

theorem reifyBuffered_frame {debug : Bool} {enc : EncView} {reif : Lit} {ifDef def₁ : Nat} :
    ∀ {as : List Lit} {val : Nat} {ps ps' : PStuff},
      reifyBuffered debug enc reif ifDef def₁ val as ps = some ps' →
      ps'.valueMap = ps.valueMap ∧ ps'.bounds = ps.bounds
  | [], _, _, _, h => by
    simp only [reifyBuffered, Option.some.injEq] at h
    subst h; exact ⟨rfl, rfl⟩
  | a :: as, val, ps, ps', h => by
    simp only [reifyBuffered] at h
    obtain ⟨⟨olit, sems⟩, _, h⟩ := Option.bind_eq_some_iff.1 h
    simp only at h
    split at h
    · have q := reifyBuffered_frame h
      exact q
    · split at h
      · cases h
      · obtain ⟨only, _, h⟩ := Option.bind_eq_some_iff.1 h
        have q := reifyBuffered_frame h
        exact q

/-- A reification only adds a meaning for its literal and for variables of the proof, and forgets no bound. -/
theorem certifyAssumpReification_frame {debug : Bool} {obj : Objective} {enc : EncView} {value : Nat} {reif : Lit}
    {assumps : List Lit} {ps ps' : PStuff} {id : Nat}
    (h : certifyAssumpReification debug obj enc value reif assumps ps = some (id, ps')) :
    (∃ new, ps'.valueMap = ps.valueMap ++ new ∧ ∀ p ∈ new, p.1.var = .solver reif.var ∨ ∃ k, p.1.var = .proof k) ∧
    ∀ k d, mapGet k ps.bounds = some d → mapGet k ps'.bounds = some d := by
  unfold certifyAssumpReification at h
  split at h
  · cases assumps with
    | nil => cases h
    | cons a as =>
      simp only at h
      obtain ⟨⟨firstOlit, firstSems⟩, _, h⟩ := Option.bind_eq_some_iff.1 h
      simp only at h
      split at h
      · cases h
      · split at h
        · simp only [Option.some.injEq, Prod.mk.injEq] at h
          obtain ⟨-, rfl⟩ := h
          exact ⟨⟨[(toAxm reif, ProofVal.identical a)], rfl, fun p hp => by
            cases List.mem_singleton.1 hp; exact Or.inl rfl⟩, fun _ _ h => h⟩
        · obtain ⟨firstIfDef, _, h⟩ := Option.bind_eq_some_iff.1 h
          obtain ⟨ps₂, hf, h⟩ := Option.bind_eq_some_iff.1 h
          simp only [Option.some.injEq, Prod.mk.injEq] at h
          obtain ⟨-, rfl⟩ := h
          obtain ⟨h1, h2⟩ := reifyFurther_frame hf
          exact ⟨⟨[(toAxm reif, ProofVal.identical a)], h1, fun p hp => by
            cases List.mem_singleton.1 hp; exact Or.inl rfl⟩, fun _ _ h => by rw [h2]; exact h⟩
  · have hst := getObjBound_state value obj ps
    have hbd : ∀ k d, mapGet k ps.bounds = some d → mapGet k (getObjBound value obj ps).2.bounds = some d :=
      fun k d hk => getObjBound_bounds hk
    generalize getObjBound value obj ps = r at *
    obtain ⟨⟨ideal, def₁, def₂⟩, ps₀⟩ := r
    simp only at h hst hbd
    obtain ⟨ps₂, hf, h⟩ := Option.bind_eq_some_iff.1 h
    simp only [Option.some.injEq, Prod.mk.injEq] at h
    obtain ⟨-, rfl⟩ := h
    obtain ⟨h1, h2⟩ := reifyBuffered_frame hf
    replace h1 : ps₂.valueMap = ps₀.valueMap ++ [(toAxm reif.not, ProofVal.objAtLeast obj.idx value)] := h1
    replace h2 : ps₂.bounds = ps₀.bounds := h2
    refine ⟨?_, fun k d hk => by rw [h2]; exact hbd k d hk⟩
    rcases hst with rfl | ⟨hv, -, -⟩
    · exact ⟨_, h1, fun p hp => by cases List.mem_singleton.1 hp; exact Or.inl rfl⟩
    · rw [hv, List.append_assoc] at h1
      refine ⟨_, h1, fun p hp => ?_⟩
      rcases List.mem_append.1 hp with hp | hp
      · cases List.mem_singleton.1 hp; exact Or.inr ⟨_, rfl⟩
      · cases List.mem_singleton.1 hp; exact Or.inl rfl

end Scuttle
