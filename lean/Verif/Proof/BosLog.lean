import Verif.Proof.Lines
import Verif.Proof.LinsuLog
import Verif.SpecBos

/-!
# Lemmas on the proof of BiOptSat
-/

set_option linter.unusedSectionVars false

namespace Scuttle

variable {ord : (AnyVar → Bool) → (AnyVar → Bool) → Prop}

theorem Spec.HasClause.mono {ps ps' : PStuff} (h : Spec.Keeps ps ps') {i : Nat} {ls : List (Axm AnyVar)}
    (hc : Spec.HasClause ps i ls) : Spec.HasClause ps' i ls := by
  obtain ⟨c, h1, h2⟩ := hc
  exact ⟨c, h _ _ h1, h2⟩

theorem Spec.IncBound.mono {ps ps' : PStuff} (h : Spec.Keeps ps ps') {incCost incLb : Nat} {a b c : Option Nat}
    {x₀ : Axm AnyVar} (hi : Spec.IncBound ps incCost incLb a b c x₀) : Spec.IncBound ps' incCost incLb a b c x₀ := by
  unfold Spec.IncBound at hi ⊢
  split
  · rename_i he
    rw [if_pos he] at hi
    obtain ⟨i, j, y, h1, h2, h3, h4⟩ := hi
    exact ⟨i, j, y, h1, h2, h3.mono h, h4.mono h⟩
  · rename_i he
    rw [if_neg he] at hi
    obtain ⟨i, h1, h2⟩ := hi
    exact ⟨i, h1, h2.mono h⟩

theorem Spec.CertifiedSame.refl (ps : PStuff) : Spec.CertifiedSame ps ps [] :=
  ⟨[], by simp, rfl, fun x hx => by cases hx⟩

theorem Spec.CertifiedSame.trans {ps ps' ps'' : PStuff} {cls cls' : List Clause} (h : Spec.CertifiedSame ps ps' cls)
    (hk : Spec.Keeps ps' ps'') (h' : Spec.CertifiedSame ps' ps'' cls') : Spec.CertifiedSame ps ps'' (cls ++ cls') := by
  obtain ⟨n, h1, h2, h3⟩ := h
  obtain ⟨n', h4, h5, h6⟩ := h'
  refine ⟨n ++ n', by rw [h4, h1, List.append_assoc], by rw [List.map_append, h2, h5], fun x hx => ?_⟩
  rcases List.mem_append.1 hx with hx | hx
  · exact (h3 x hx).mono hk
  · exact h6 x hx

theorem clause_pair_slack (ρ : AnyVar → Bool) (x y : Axm AnyVar) :
    (LbCon.clause [x, y]).slack ρ = x.val ρ + y.val ρ - 1 := by
  rw [LbCon.slack_clause]; simp

theorem clause_unit_slack (ρ : AnyVar → Bool) (x : Axm AnyVar) : (LbCon.clause [x]).slack ρ = x.val ρ - 1 := by
  rw [LbCon.slack_clause]; simp

/-- The sum of two clauses on which a literal cancels. -/
theorem add_eval {db : ConDb AnyVar} {i j : Nat} {c d : LbCon AnyVar} (h1 : db.get i = some c) (h2 : db.get j = some d) :
    (Ops.add (.id (.abs i)) (.id (.abs j))).eval db = some (c.add d) := by
  simp only [Ops.eval, ConDb.find_abs, h1, h2, Option.bind_eq_bind, Option.bind_some]

/-- Saturation of a constraint on two literals. -/
theorem saturate_pair {c : LbCon AnyVar} {a b : Axm AnyVar} {n : Nat} (hn : 0 < n) (hv : a.var ≠ b.var)
    (h : ∀ ρ, c.slack ρ = n * a.val ρ + b.val ρ - 1) : c.saturate.Same (.clause [a, b]) := by
  have hs : c.Same ⟨[((n : Int), a), (1, b)], 1⟩ := fun ρ => by
    rw [h, LbCon.slack_def]
    simp
  refine hs.saturate.trans ((LbCon.Normal.saturate ⟨?_, ?_⟩).trans ?_)
  · simp only [List.map_cons, List.map_nil, List.nodup_cons, List.mem_singleton]
    exact ⟨hv, by simp, List.nodup_nil⟩
  · intro p hp
    simp only [List.mem_cons, List.not_mem_nil, or_false] at hp
    rcases hp with rfl | rfl <;> simp
  · unfold LbCon.clause
    simp only [List.map_cons, List.map_nil]
    rw [show min (n : Int) (max 1 0) = 1 by omega, show min (1 : Int) (max 1 0) = 1 by omega]
    exact LbCon.Same.refl _

/-! ## The lower bound on the decreasing objective -/

/-- What the loop over the assumptions derives: the first output or the assumption. -/
structure BosLinks (ps ps' : PStuff) (first : Lit) (ids : List Nat) (as : List Lit) : Prop where
  new : ∀ i ∈ ids, ps.proof.db.length < i ∧ (ps'.proof.db.get i).isSome
  links : List.Forall₂ (fun i a => Spec.HasClause ps' i [toAxm first, toAxm a]) ids as

theorem bosImpls_spec {debug : Bool} {enc : EncView} {obj : Objective} {incCost v₁ : Nat} {first : Lit} {defs₀ : SemDefs}
    {encSum : (AnyVar → Bool) → Nat} {offset total : Nat} (hd0 : enc.details v₁ = some (first, defs₀)) (hv₁ : incCost ≤ v₁) :
    ∀ {as : List Lit} {val : Nat} {ps ps' : PStuff} {ids : List Nat},
      Spec.ReifContract ps.proof.db enc obj v₁ encSum offset total → v₁ < val → Spec.OutputsFrom enc val as →
      bosImpls debug enc defs₀.ifDef incCost val as ps = some (ids, ps') →
      Lines ord ps ps' ∧ ps'.added = ps.added ∧ BosLinks ps ps' first ids as
  | [], val, ps, ps', ids, _, _, _, h => by
    simp only [bosImpls, Option.some.injEq, Prod.mk.injEq] at h
    obtain ⟨rfl, rfl⟩ := h
    exact ⟨Lines.refl ps, rfl, ⟨fun i hi => (by cases hi), .nil⟩⟩
  | a :: as, val, ps, ps', ids, K, hlt, ⟨⟨defs, hd⟩, ho⟩, h => by
    simp only [bosImpls] at h
    rw [hd] at h
    simp only [Option.bind_eq_bind, Option.bind_some] at h
    split at h
    · cases h
    · obtain ⟨ifDef, hif, h⟩ := Option.bind_eq_some_iff.1 h
      obtain ⟨only, hon, h⟩ := Option.bind_eq_some_iff.1 h
      obtain ⟨⟨ids', ps₂⟩, hrec, h⟩ := Option.bind_eq_some_iff.1 h
      simp only [Option.some.injEq, Prod.mk.injEq] at h
      obtain ⟨rfl, rfl⟩ := h
      obtain ⟨c₁, g1, g2⟩ := K.ifDef _ _ _ _ hd0 hif
      obtain ⟨c₂, g3, g4⟩ := K.onlyIfDef _ _ _ _ hd hon
      obtain ⟨e1, e2, e3⟩ := lines_pol (ord := ord) (implOps_eval g1 g3 (D := val - incCost + 2) (by omega))
      have hnext := K.higher val
      obtain ⟨q1, q2, q3⟩ := bosImpls_spec hd0 hv₁ (K.mono e1.keeps) (by omega) ho hrec
      have hr := K.range
      have hsame := impl_same (D := val - incCost + 2) g2 g4 (by omega) (by omega) (by omega) (by omega)
        (fun he => K.distinct _ _ _ _ _ _ hlt hd0 hd (AnyVar.solver.inj he))
      have hid : (ps.push (.pol (implOps ifDef only (val - incCost + 2)))).1 = ps.proof.db.length + 1 := rfl
      refine ⟨e1.trans q1, q2, ⟨fun i hi => ?_, .cons ⟨_, q1.keeps _ _ e3, ?_⟩ q3.links⟩⟩
      · rcases List.mem_cons.1 hi with rfl | hi
        · rw [q1.keeps _ _ e3, hid]
          exact ⟨by omega, rfl⟩
        · obtain ⟨h1, h2⟩ := q3.new i hi
          exact ⟨by have := e1.length; omega, h2⟩
      · refine hsame.trans fun ρ => ?_
        rw [clause_pair_slack, clause_pair_slack, Axm.val_not, toAxm_not_val]
        omega

theorem foldl_add_eval {db : ConDb AnyVar} {first : Lit} : ∀ {ids : List Nat} {as : List Lit} {o : Ops} {c : LbCon AnyVar},
    List.Forall₂ (fun i a => ∃ d, db.get i = some d ∧ d.Same (.clause [toAxm first, toAxm a])) ids as → o.eval db = some c →
    ∃ d, (ids.foldl (fun s i => Ops.add s (.id (.abs i))) o).eval db = some d ∧
      ∀ ρ, d.slack ρ = c.slack ρ + (as.map fun a => (toAxm first).val ρ + (toAxm a).val ρ - 1).sum
  | [], _, o, c, .nil, h => ⟨c, h, fun ρ => by simp⟩
  | i :: ids, a :: as, o, c, .cons ⟨d, h1, h2⟩ hs, h => by
    obtain ⟨e, h3, h4⟩ := foldl_add_eval (o := Ops.add o (.id (.abs i))) (c := c.add d) hs (by
      simp only [Ops.eval, ConDb.find_abs, h1, h, Option.bind_eq_bind, Option.bind_some])
    refine ⟨e, h3, fun ρ => ?_⟩
    rw [h4, LbCon.slack_add, h2, clause_pair_slack, List.map_cons, List.sum_cons]
    omega

theorem sum_links (ρ : AnyVar → Bool) (first : Lit) : ∀ as : List Lit,
    (as.map fun a => (toAxm a.not).val ρ).sum + (as.map fun a => (toAxm first).val ρ + (toAxm a).val ρ - 1).sum =
      as.length * (toAxm first).val ρ
  | [] => by simp
  | a :: as => by
    have := sum_links ρ first as
    simp only [List.map_cons, List.sum_cons, List.length_cons, toAxm_not_val] at this ⊢
    push_cast
    rw [Int.add_mul]
    omega

/-- The lower bound on the decreasing objective mentions only the first output afterwards. -/
theorem bosShorten_spec {debug : Bool} {enc₀ enc₁ : EncView} {obj₀ obj₁ : Objective} {incCost decCost : Nat} {assumps : List Lit}
    {decLb decLb' : Option Nat} {ps ps' : PStuff} {x₁ : Axm AnyVar} (hb : enc₀.bufferEmpty = true)
    (hup : incCost ≤ enc₀.nextHigher incCost ∨ assumps.length < 2)
    (hK : 2 ≤ assumps.length → ∃ sum offset total,
      Spec.ReifContract ps.proof.db enc₀ obj₀ (enc₀.nextHigher incCost) sum offset total)
    {i : Nat} {c : LbCon AnyVar} (hlb : decLb = some i) (hc1 : ps.proof.db.get i = some c) (ha : Spec.OutputsFrom enc₀ (enc₀.nextHigher incCost) assumps)
    (hne : ∀ olit defs, enc₀.details (enc₀.nextHigher incCost) = some (olit, defs) → .solver olit.var ≠ x₁.var)
    (h : bosShorten debug enc₀ enc₁ obj₁ incCost decCost assumps decLb ps = some (decLb', ps')) :
    Lines ord ps ps' ∧ ps'.added = ps.added ∧ (c.Same (.clause (assumps.map (fun l => toAxm l.not) ++ [x₁])) →
      assumps ≠ [] → ∃ j olit defs, decLb' = some j ∧ enc₀.details (enc₀.nextHigher incCost) = some (olit, defs) ∧
        Spec.HasClause ps' j [toAxm olit, x₁]) := by
  subst hlb
  unfold bosShorten at h
  obtain ⟨⟨first, sems⟩, hd, h⟩ := Option.bind_eq_some_iff.1 h
  simp only at h
  rw [if_pos hb] at h
  match assumps, ha with
  | [], _ =>
    simp only [Option.some.injEq, Prod.mk.injEq] at h
    obtain ⟨rfl, rfl⟩ := h
    exact ⟨Lines.refl _, rfl, fun _ h0 => absurd rfl h0⟩
  | [a], ⟨⟨defs, hda⟩, _⟩ =>
    simp only at h
    split at h
    · cases h
    · simp only [Option.some.injEq, Prod.mk.injEq] at h
      obtain ⟨rfl, rfl⟩ := h
      exact ⟨Lines.refl _, rfl, fun hc _ => ⟨i, _, _, rfl, hda, c, hc1, hc⟩⟩
  | a :: b :: as, ⟨⟨defs, hda⟩, ho⟩ =>
    simp only at h
    rw [hd] at hda
    cases hda
    rw [if_pos (Lit.not_not a).symm] at h
    obtain ⟨⟨ids, ps₁⟩, himp, h⟩ := Option.bind_eq_some_iff.1 h
    simp only [Option.bind_eq_bind, Option.bind_some, Option.some.injEq, Prod.mk.injEq] at h
    obtain ⟨rfl, rfl⟩ := h
    obtain ⟨sum, offset, total, K⟩ := hK (by simp)
    obtain ⟨e1, e2, e3⟩ := bosImpls_spec (ord := ord) hd (by simp only [List.length_cons] at hup; omega) K (K.higher _) ho himp
    obtain ⟨d, hd1, hd2⟩ := foldl_add_eval (db := ps₁.proof.db) (o := .id (.abs i)) (c := c) e3.links (e1.keeps _ _ hc1)
    have heval : (shortenOps i ids).eval ps₁.proof.db = some d.saturate := by
      unfold shortenOps
      simp only [Ops.eval, hd1, Option.map_some]
    obtain ⟨e4, e5, e6⟩ := lines_pol (ord := ord) heval
    have hlines := (e1.trans e4).del (ids := ids) (fun j hj => by
      obtain ⟨h1, h2⟩ := e3.new j hj
      obtain ⟨y, hy⟩ := Option.isSome_iff_exists.1 h2
      rw [e4.keeps _ _ hy]
      exact ⟨h1, rfl⟩)
    refine ⟨hlines, e2, fun hc2 _ => ⟨_, _, _, rfl, hd, d.saturate, ?_, ?_⟩⟩
    · show (ConDb.delete _ _).get _ = _
      rw [ConDb.get_delete (fun hj => ?_)]
      · exact e6
      · obtain ⟨y, hy⟩ := Option.isSome_iff_exists.1 (e3.new _ hj).2
        have := ConDb.get_lt hy
        have hid : (ps₁.push (.pol (shortenOps i ids))).1 = ps₁.proof.db.length + 1 := rfl
        omega
    · refine saturate_pair (n := (b :: as).length + 1) (by omega) (hne _ _ hd) fun ρ => ?_
      have := sum_links ρ a.not (b :: as)
      rw [hd2, hc2, LbCon.slack_clause, List.map_append, List.map_map, List.sum_append, List.map_cons, List.sum_cons]
      simp only [Function.comp_def, List.map_cons, List.map_nil, List.sum_cons, List.sum_nil] at this ⊢
      push_cast at this ⊢
      rw [Int.add_mul]
      omega

/-! ## The cut -/

/-- The P-minimal cut without the increasing objective. -/
theorem bosCutId_spec {enc₀ : EncView} {incCost incLb pminCut cutId : Nat} {incLbId lastCut lastDecLb : Option Nat}
    {ps ps' : PStuff} {x₀ : Axm AnyVar} {cut : List (Axm AnyVar)}
    (hinc : enc₀.offset < incCost → Spec.IncBound ps incCost incLb incLbId lastCut lastDecLb x₀)
    (hcut : Spec.HasClause ps pminCut (if incCost ≤ enc₀.offset then cut else x₀.not :: cut))
    (h : bosCutId enc₀ incCost incLb pminCut incLbId lastCut lastDecLb ps = some (cutId, ps')) :
    Lines ord ps ps' ∧ ps'.added = ps.added ∧ Spec.HasClause ps' cutId cut := by
  unfold bosCutId at h
  have hsum : ∀ {c d : LbCon AnyVar}, c.Same (.clause [x₀]) → d.Same (.clause (x₀.not :: cut)) →
      (c.add d).Same (.clause cut) := by
    intro c d h1 h2 ρ
    rw [LbCon.slack_add, h1, h2, clause_unit_slack, LbCon.slack_clause, LbCon.slack_clause, List.map_cons, List.sum_cons, Axm.val_not]
    omega
  split at h
  · rename_i hle
    simp only [Option.some.injEq, Prod.mk.injEq] at h
    obtain ⟨rfl, rfl⟩ := h
    rw [if_pos hle] at hcut
    exact ⟨Lines.refl _, rfl, hcut⟩
  · rename_i hgt
    rw [if_neg hgt] at hcut
    obtain ⟨p, hp1, hp2⟩ := hcut
    have hI := hinc (by omega)
    unfold Spec.IncBound at hI
    split at h
    · rename_i heq
      rw [if_pos heq] at hI
      obtain ⟨i, j, y, rfl, rfl, ⟨c, hc1, hc2⟩, ⟨d, hd1, hd2⟩⟩ := hI
      simp only [Option.bind_eq_bind, Option.bind_some, Option.some.injEq] at h
      obtain ⟨e1, e2, e3⟩ := lines_pol (ord := ord) (add_eval hc1 hd1)
      obtain ⟨f1, f2, f3⟩ := lines_pol (ord := ord) (add_eval e3 (e1.keeps _ _ hp1))
      have hx : (c.add d).Same (.clause [x₀]) := fun ρ => by
        rw [LbCon.slack_add, hc2, hd2, clause_unit_slack, clause_pair_slack, clause_unit_slack, Axm.val_not]
        omega
      cases h
      exact ⟨e1.trans f1, rfl, _, f3, hsum hx hp2⟩
    · rename_i hne
      rw [if_neg hne] at hI
      obtain ⟨i, rfl, c, hc1, hc2⟩ := hI
      simp only [Option.bind_eq_bind, Option.bind_some, Option.some.injEq] at h
      obtain ⟨f1, f2, f3⟩ := lines_pol (ord := ord) (add_eval hc1 hp1)
      cases h
      exact ⟨f1, rfl, _, f3, hsum hc2 hp2⟩

/-- The outputs after the first one. -/
theorem bosAddOutputs_spec {debug : Bool} {enc : EncView} {obj : Objective} {decCost cutId : Nat} {first : Lit} {defs₀ : SemDefs}
    {encSum : (AnyVar → Bool) → Nat} {offset total : Nat} (hd0 : enc.details decCost = some (first, defs₀)) :
    ∀ {as : List Lit} {val : Nat} {ps ps' : PStuff},
      Spec.ReifContract ps.proof.db enc obj decCost encSum offset total → decCost ≤ val →
      Spec.OutputsFrom enc (enc.nextHigher val) as → Spec.HasClause ps cutId [toAxm first.not] →
      bosAddOutputs debug enc defs₀.ifDef decCost cutId val as ps = some ps' →
      Lines ord ps ps' ∧ Spec.CertifiedSame ps ps' (as.map fun a => [a])
  | [], val, ps, ps', _, _, _, _, h => by
    simp only [bosAddOutputs, Option.some.injEq] at h
    subst h
    exact ⟨Lines.refl ps, Spec.CertifiedSame.refl ps⟩
  | a :: as, val, ps, ps', K, hle, ⟨⟨defs, hd⟩, ho⟩, hcut, h => by
    have hnext := K.higher val
    have hlt : decCost < enc.nextHigher val := by omega
    simp only [bosAddOutputs] at h
    generalize hv : enc.nextHigher val = val' at *
    rw [hd] at h
    simp only [Option.bind_eq_bind, Option.bind_some] at h
    split at h
    · cases h
    · obtain ⟨ifDef, hif, h⟩ := Option.bind_eq_some_iff.1 h
      obtain ⟨only, hon, h⟩ := Option.bind_eq_some_iff.1 h
      obtain ⟨c₁, g1, g2⟩ := K.ifDef _ _ _ _ hd0 hif
      obtain ⟨c₂, g3, g4⟩ := K.onlyIfDef _ _ _ _ hd hon
      obtain ⟨e1, e2, e3⟩ := lines_pol (ord := ord) (implOps_eval g1 g3 (D := val' - decCost + 1) (by omega))
      have hr := K.range
      have hsame := impl_same (D := val' - decCost + 1) g2 g4 (by omega) (by omega) (by omega) (by omega)
        (fun he => K.distinct _ _ _ _ _ _ hlt hd0 hd (AnyVar.solver.inj he))
      obtain ⟨c, hc1, hc2⟩ := hcut
      generalize hs₁ : ProofStep.pol (implOps ifDef only (val' - decCost + 1)) = s₁ at *
      obtain ⟨f1, f2, f3⟩ := lines_pol (ord := ord) (add_eval (e1.keeps _ _ hc1) e3)
      generalize hs₂ : ProofStep.pol (V := AnyVar) (.add (.id (.abs cutId)) (.id (.abs (ps.push s₁).1))) = s₂ at *
      have hid1 : (ps.push s₁).1 = ps.proof.db.length + 1 := rfl
      have hid2 : ((ps.push s₁).2.push s₂).1 = ps.proof.db.length + 2 := by
        show (ps.push s₁).2.proof.db.length + 1 = _
        rw [e2]; simp
      have hl := ((e1.trans f1).added [a] ((ps.push s₁).2.push s₂).1).del (ids := [(ps.push s₁).1]) (fun i hi => by
        cases List.mem_singleton.1 hi
        show _ ∧ (ConDb.get ((ps.push s₁).2.push s₂).2.proof.db _).isSome
        rw [f1.keeps _ _ e3]
        exact ⟨by omega, rfl⟩)
      have hg : Spec.HasClause ((((ps.push s₁).2.push s₂).2.addCert [a] ((ps.push s₁).2.push s₂).1).write
          (.del [(ps.push s₁).1] [])) ((ps.push s₁).2.push s₂).1 [toAxm a] := by
        refine ⟨c.add ((c₁.add c₂).div (val' - decCost + 1)).saturate, ?_, fun ρ => ?_⟩
        · show (ConDb.delete _ _).get _ = _
          rw [ConDb.get_delete (by rw [List.mem_singleton]; omega)]
          exact f3
        · rw [LbCon.slack_add, hc2, hsame, clause_pair_slack, clause_unit_slack, clause_unit_slack, Axm.val_not, toAxm_not_val,
            toAxm_not_val]
          omega
      obtain ⟨q1, q2⟩ := bosAddOutputs_spec hd0 (K.mono hl.keeps) (show decCost ≤ val' by omega) ho
        (Spec.HasClause.mono hl.keeps ⟨c, hc1, hc2⟩) h
      refine ⟨hl.trans q1, Spec.CertifiedSame.trans (cls := [[a]]) ⟨[([a], ((ps.push s₁).2.push s₂).1)], rfl, rfl, fun x hx => ?_⟩ q1.keeps q2⟩
      cases List.mem_singleton.1 hx
      exact hg

/-- A literal follows from the cut and an implication; the implication is removed. -/
theorem addFromCut {ps ps₁ : PStuff} {x : Axm AnyVar} {a : Lit} {cutId imp : Nat} (hl : Lines ord ps ps₁)
    (hcut : Spec.HasClause ps cutId [x.not]) (himp : Spec.HasClause ps₁ imp [x, toAxm a]) (hnew : ps.proof.db.length < imp)
    (hadd : ps₁.added = ps.added) {ps₂ : PStuff} {id : Nat}
    (hp : ps₁.push (.pol (.add (.id (.abs cutId)) (.id (.abs imp)))) = (id, ps₂)) :
    Lines ord ps ((ps₂.addCert [a] id).write (.del [imp] [])) ∧
      Spec.CertifiedSame ps ((ps₂.addCert [a] id).write (.del [imp] [])) [[a]] := by
  obtain ⟨c, hc1, hc2⟩ := hcut
  obtain ⟨d, hd1, hd2⟩ := himp
  obtain ⟨f1, f2, f3⟩ := lines_pol (ord := ord) (add_eval (hl.keeps _ _ hc1) hd1)
  rw [hp] at f1 f2 f3
  have hid : id = ps₁.proof.db.length + 1 := (congrArg Prod.fst hp).symm
  have hlt := ConDb.get_lt hd1
  have hA := ((hl.trans f1).added [a] id).del (ids := [imp]) (fun i hi => by
    cases List.mem_singleton.1 hi
    refine ⟨hnew, ?_⟩
    show (ps₂.proof.db.get imp).isSome
    rw [f1.keeps _ _ hd1]; rfl)
  have ha : ps₂.added = ps.added := by rw [← hadd]; exact (congrArg (fun q => q.2.added) hp).symm
  refine ⟨hA, [([a], id)], ?_, rfl, fun y hy => ?_⟩
  · show ps₂.added ++ [([a], id)] = _
    rw [ha]
  · cases List.mem_singleton.1 hy
    refine ⟨c.add d, ?_, fun ρ => ?_⟩
    · show (ConDb.delete _ _).get _ = _
      rw [ConDb.get_delete (by rw [List.mem_singleton]; omega)]
      exact f3
    · show _ = (LbCon.clause [toAxm a]).slack ρ
      rw [LbCon.slack_add, hc2, hd2, clause_pair_slack, clause_unit_slack, clause_unit_slack, Axm.val_not]
      omega

/-- The literals of the objective and the outputs. -/
theorem bosAddBuffered_spec {debug : Bool} {enc : EncView} {obj : Objective} {decCost cutId def₁ k : Nat}
    {encSum : (AnyVar → Bool) → Nat} {offset total : Nat} (hbuf : enc.bufferEmpty = false) :
    ∀ {as : List Lit} {val : Nat} {ps ps' : PStuff},
      Spec.ReifContract ps.proof.db enc obj decCost encSum offset total → decCost ≤ val → k < ps.proof.nProofVars →
      ps.proof.db.get def₁ = some (boundDef₁ obj decCost (.proof k)) → Spec.BufferedFrom enc obj decCost val as →
      Spec.HasClause ps cutId [(⟨.proof k, false⟩ : Axm AnyVar).not] →
      bosAddBuffered debug enc ⟨.proof k, false⟩ def₁ cutId val as ps = some ps' →
      Lines ord ps ps' ∧ Spec.CertifiedSame ps ps' (as.map fun a => [a])
  | [], val, ps, ps', _, _, _, _, _, _, h => by
    simp only [bosAddBuffered, Option.some.injEq] at h
    subst h
    exact ⟨Lines.refl ps, Spec.CertifiedSame.refl ps⟩
  | a :: as, val, ps, ps', K, hle, hk, hget, ⟨olit, defs, hd, hcase⟩, hcut, h => by
    simp only [bosAddBuffered] at h
    rw [hd] at h
    simp only [Option.bind_eq_bind, Option.bind_some] at h
    have hm : ∀ n, ps.proof.nProofVars = n → ∀ j,
        Spec.Mentions (.clause [(⟨.proof k, false⟩ : Axm AnyVar), toAxm a]) (.proof j) → j < n := by
      rintro n rfl j ⟨p, hp, he⟩
      simp only [LbCon.clause, List.map_cons, List.map_nil, List.mem_cons, List.not_mem_nil, or_false] at hp
      rcases hp with rfl | rfl
      · cases he; exact hk
      · cases he
    rcases hcase with ⟨hlt, ⟨w, hw, hin⟩, ho⟩ | ⟨hlt, hol, ho⟩
    · rw [if_pos hlt] at h
      have hrup : Spec.Rup [boundDef₁ obj decCost (.proof k)] (.clause [(⟨.proof k, false⟩ : Axm AnyVar), toAxm a]) := by
        refine rup_direct (List.mem_singleton.2 rfl) fun ρ hy => ?_
        have h1 := hy (toAxm a) (by simp)
        have h2 := hy ⟨.proof k, false⟩ (by simp)
        rw [LbCon.holds_iff, boundDef₁_slack, h2]
        have h3 : Spec.LitTrue (Spec.solverAsg ρ) a.not := by
          have := toAxm_val ρ a.not
          rw [toAxm_not_val, h1] at this
          by_contra hc
          rw [if_neg hc] at this
          omega
        have h4 : w ≤ Spec.objSum obj ρ := linear_ge hin h3
        omega
      obtain ⟨e1, e2, e3⟩ := lines_rup (ord := ord) (hints := [.abs def₁]) (by simp [ConDb.find_abs, hget]) hrup (hm _ rfl)
      obtain ⟨q1, q2⟩ := addFromCut e1 hcut ⟨_, e3, LbCon.Same.refl _⟩ (Nat.lt_succ_self _) rfl rfl
      obtain ⟨r1, r2⟩ := bosAddBuffered_spec hbuf (K.mono q1.keeps) hle (by rw [q1.nVars]; exact hk) (q1.keeps _ _ hget) ho
        (hcut.mono q1.keeps) h
      exact ⟨q1.trans r1, q2.trans r1.keeps r2⟩
    · rw [if_neg hlt] at h
      split at h
      · cases h
      · obtain ⟨only, hon, h⟩ := Option.bind_eq_some_iff.1 h
        obtain ⟨c₂, g3, g4⟩ := K.onlyIfDef _ _ _ _ hd hon
        obtain ⟨hoff, hpart⟩ := K.part hbuf
        obtain ⟨e1, e2, e3⟩ := lines_pol (ord := ord) (add_eval hget g3)
        have hrup : Spec.Rup [(boundDef₁ obj decCost (.proof k)).add c₂]
            (.clause [(⟨.proof k, false⟩ : Axm AnyVar), toAxm a]) := by
          refine rup_direct (List.mem_singleton.2 rfl) fun ρ hy => ?_
          have h1 := hy (toAxm a) (by simp)
          have h2 := hy ⟨.proof k, false⟩ (by simp)
          have h5 : (toAxm olit).val ρ = 1 := by
            have := toAxm_not_val olit ρ
            rw [hol, h1] at this
            omega
          rw [LbCon.holds_iff, LbCon.slack_add, boundDef₁_slack, g4, h5, h2]
          have := hpart ρ
          subst hoff
          simp only [Nat.sub_zero]
          omega
        obtain ⟨e4, e5, e6⟩ := lines_rup (ord := ord)
          (hints := [.abs (ps.push (.pol (.add (.id (.abs def₁)) (.id (.abs only))))).1])
          (by simp only [List.mapM_cons, List.mapM_nil, ConDb.find_abs]; rw [e3]; rfl) hrup (hm _ e1.nVars.symm)
        generalize hs₁ : ProofStep.pol (V := AnyVar) (.add (.id (.abs def₁)) (.id (.abs only))) = s₁ at *
        generalize hs₂ : ProofStep.rup (.clause [(⟨.proof k, false⟩ : Axm AnyVar), toAxm a]) [.abs (ps.push s₁).1] = s₂ at *
        have hid1 : (ps.push s₁).1 = ps.proof.db.length + 1 := rfl
        have hid2 : ((ps.push s₁).2.push s₂).1 = ps.proof.db.length + 2 := by
          show (ps.push s₁).2.proof.db.length + 1 = _
          rw [e2]; simp
        have e7 := (e1.trans e4).del (ids := [(ps.push s₁).1]) (fun i hi => by
          cases List.mem_singleton.1 hi
          rw [e4.keeps _ _ e3]
          exact ⟨by omega, rfl⟩)
        have e8 : (((ps.push s₁).2.push s₂).2.write (.del [(ps.push s₁).1] [])).proof.db.get ((ps.push s₁).2.push s₂).1 =
            some (.clause [(⟨.proof k, false⟩ : Axm AnyVar), toAxm a]) := by
          show (ConDb.delete _ _).get _ = _
          rw [ConDb.get_delete (by rw [List.mem_singleton]; omega)]
          exact e6
        obtain ⟨q1, q2⟩ := addFromCut e7 hcut ⟨_, e8, LbCon.Same.refl _⟩ (by omega) rfl rfl
        have hnext := K.higher val
        obtain ⟨r1, r2⟩ := bosAddBuffered_spec hbuf (K.mono q1.keeps) (show decCost ≤ enc.nextHigher val by omega)
          (by rw [q1.nVars]; exact hk) (q1.keeps _ _ hget) ho (hcut.mono q1.keeps) h
        exact ⟨q1.trans r1, q2.trans r1.keeps r2⟩

/-! ## The literals of the P-minimal cut -/

theorem cutDatum_low {debug : Bool} {enc : EncView} {o : PObj} {cst : Nat} {ps ps' : PStuff}
    {d : Option (Axm AnyVar) × Option Nat} (hle : cst ≤ o.obj.lowerBound)
    (h : cutDatum debug enc o cst ps = some (d, ps')) : d.1 = none ∧ ps' = ps := by
  unfold cutDatum at h
  rw [if_pos hle] at h
  split at h
  · cases h
  · cases h; exact ⟨rfl, rfl⟩

theorem cutDatum_lit {debug : Bool} {enc : EncView} {o : PObj} {cst : Nat} {ps ps' : PStuff} {x : Axm AnyVar}
    {d : Option (Axm AnyVar) × Option Nat} (B : Spec.BoundLit enc o cst ps x)
    (h : cutDatum debug enc o cst ps = some (d, ps')) : d.1 = some x.not ∧ ps' = ps := by
  unfold cutDatum at h
  rw [if_neg (by have := B.above; omega)] at h
  cases hb : enc.bufferEmpty with
  | true =>
    obtain ⟨olit, defs, h1, rfl, h3, h4⟩ := B.output hb
    split at h
    · rename_i hn
      split at h
      · cases h
      · rename_i p ps₀ hi
        cases h
        have := h3 hn p (by rw [hi]; exact List.mem_cons_self ..)
        rw [this]
        exact ⟨rfl, rfl⟩
    · split at h
      · rename_i hn
        obtain ⟨ls, hls, h⟩ := Option.bind_eq_some_iff.1 h
        obtain ⟨l, hl, h⟩ := Option.bind_eq_some_iff.1 h
        cases h
        have := h4 hn ls hls
        rw [hl] at this
        cases this
        exact ⟨rfl, rfl⟩
      · rw [h1] at h
        simp only [Option.bind_eq_bind, Option.bind_some] at h
        split at h
        · cases h
        · cases h; exact ⟨rfl, rfl⟩
  | false =>
    obtain ⟨h1, h2, d₁, d₂, h3⟩ := B.remembered hb
    rw [if_neg h1, if_neg h2, hb] at h
    simp only [Bool.false_eq_true, if_false] at h
    have hg : getObjBound cst o.obj ps = ((x, d₁, d₂), ps) := by unfold getObjBound; rw [h3]
    rw [hg] at h
    cases h
    exact ⟨rfl, rfl⟩

end Scuttle
