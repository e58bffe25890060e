import Verif.Proof.ProofReif
import Verif.Props.ProofReif
import Verif.Props.ProofCut
import Verif.SpecBlock

/-!
# Lemmas on blocking clauses in the proof
-/

set_option linter.unusedSectionVars false

namespace Scuttle

open Spec (BlockItem CutItem)

variable {objs : List Objective} {base : Assignment} {maxEncVar : Nat} {debug : Bool}

/-! ## Unit propagation with several constraints -/

theorem Axm.false_iff {V : Type} (x : Axm V) (ρ : V → Bool) : ρ x.not.var = !x.not.neg ↔ x.val ρ = 0 := by
  rw [← Axm.val_eq_one, Axm.val_not]; omega

/-- Each literal is made false by some constraint. -/
theorem Spec.Conflicts.refuted {V : Type} [DecidableEq V] {cs : List (LbCon V)} : ∀ (xs : List (Axm V)) {σ : V → Option Bool},
    (∀ x ∈ xs, ∃ c ∈ cs, ∀ ρ, Spec.ExtendedBy ρ σ → c.Holds ρ → x.val ρ = 0) →
    (∀ σ', (∀ ρ, Spec.ExtendedBy ρ σ' → Spec.ExtendedBy ρ σ ∧ ∀ x ∈ xs, x.val ρ = 0) → Spec.Conflicts cs σ') →
    Spec.Conflicts cs σ
  | [], σ, _, h => h σ fun ρ hr => ⟨hr, fun x hx => by cases hx⟩
  | x :: xs, σ, hp, h => by
    obtain ⟨c, hc, hx⟩ := hp x (List.mem_cons_self ..)
    refine Spec.Conflicts.forced c hc [x.not] (fun ρ hr hh a ha => ?_) fun σ₁ h1 => ?_
    · cases List.mem_singleton.1 ha
      rw [Axm.false_iff]
      exact hx ρ hr hh
    · refine Spec.Conflicts.refuted xs (fun y hy => ?_) fun σ₂ h2 => h σ₂ fun ρ hr => ?_
      · obtain ⟨d, hd, hy'⟩ := hp y (List.mem_cons_of_mem _ hy)
        exact ⟨d, hd, fun ρ hr hh => hy' ρ (h1 ρ hr).1 hh⟩
      · obtain ⟨h3, h4⟩ := h2 ρ hr
        obtain ⟨h5, h6⟩ := h1 ρ h3
        refine ⟨h5, fun y hy => ?_⟩
        rcases List.mem_cons.1 hy with rfl | hy
        · rw [← Axm.false_iff]; exact h6 _ (List.mem_singleton.2 rfl)
        · exact h4 y hy

/-- A clause follows from a cut if each literal of the cut is in the clause, or made false by a constraint once a literal
of the clause is false. -/
theorem rup_of_cut {hs : List (LbCon AnyVar)} {cls : Clause} {cut : List (Axm AnyVar)} (hc : LbCon.clause cut ∈ hs)
    (h : ∀ x ∈ cut, ∃ l ∈ cls, x = toAxm l ∨ ∃ c ∈ hs, ∀ ρ, c.Holds ρ → (toAxm l).val ρ = 0 → x.val ρ = 0) :
    Spec.Rup hs (clauseCon cls) := by
  unfold Spec.Rup
  refine Spec.Conflicts.refuted (cls.map toAxm) (fun x hx => ⟨_, List.mem_cons_self .., fun ρ _ hh => ?_⟩) fun σ₁ h1 => ?_
  · rw [LbCon.holds_neg] at hh
    exact not_clause.1 hh x hx
  · refine Spec.Conflicts.refuted cut (fun x hx => ?_) fun σ₂ h2 => ?_
    · obtain ⟨l, hl, rfl | ⟨c, hc', hx'⟩⟩ := h x hx
      · exact ⟨_, List.mem_cons_self .., fun ρ hr _ => (h1 ρ hr).2 _ (List.mem_map_of_mem hl)⟩
      · exact ⟨c, List.mem_cons_of_mem _ hc', fun ρ hr hh => hx' ρ hh ((h1 ρ hr).2 _ (List.mem_map_of_mem hl))⟩
    · exact .conflict (List.mem_cons_of_mem _ hc) fun ρ hr hh => not_clause.2 (h2 ρ hr).2 hh

/-! ## Steps -/

theorem Spec.CutContract.keep {ps ps' : PStuff} {enc : EncView} {o : PObj} {cst : Nat} {encSum : (AnyVar → Bool) → Nat}
    (h : Spec.CutContract ps.proof.db (Spec.WitnessAgrees base ps.valueMap) enc o cst encSum) (hk : Spec.Keeps ps ps')
    (hw : ∀ ρ, Spec.WitnessAgrees base ps'.valueMap ρ → Spec.WitnessAgrees base ps.valueMap ρ) :
    Spec.CutContract ps'.proof.db (Spec.WitnessAgrees base ps'.valueMap) enc o cst encSum where
  cost := fun ρ h' => h.cost ρ (hw ρ h')
  reform := fun r hr => by
    obtain ⟨c, h1, h2⟩ := h.reform r hr
    exact ⟨c, hk _ _ h1, h2⟩
  plain := h.plain
  buffered := h.buffered
  output := fun hb hlt olit defs hd => by
    obtain ⟨h1, d, c, h2, h3, h4⟩ := h.output hb hlt olit defs hd
    exact ⟨fun ρ h' => h1 ρ (hw ρ h'), d, c, h2, hk _ _ h3, h4⟩
  single := fun hn hlt ls l h1 h2 => by
    obtain ⟨h3, h4⟩ := h.single hn hlt ls l h1 h2
    exact ⟨fun ρ h' => h3 ρ (hw ρ h'), fun ρ hρ => h4 ρ fun c hc => hρ c (live_of_keeps hk hc)⟩

/-- What one step of building the clause does. -/
structure BlockStep (objs : List Objective) (base : Assignment) (maxEncVar : Nat) (ps ps' : PStuff) : Prop where
  writes : Spec.Writes (Spec.ParetoOrder objs) ps ps'
  keeps : Spec.Keeps ps ps'
  state : Spec.LogState objs base ps'
  agrees : ∀ ρ, Spec.WitnessAgrees base ps'.valueMap ρ → Spec.WitnessAgrees base ps.valueMap ρ
  solver : ∀ p ∈ ps'.valueMap, ∀ v, p.1.var = .solver v → p ∈ ps.valueMap ∨ maxEncVar < v
  bounds : ∀ k d, mapGet k ps.bounds = some d → mapGet k ps'.bounds = some d
  certified : ∃ cls, Spec.Certified ps ps' cls

theorem BlockStep.refl {ps : PStuff} (h : Spec.LogState objs base ps) : BlockStep objs base maxEncVar ps ps :=
  ⟨Spec.Writes.refl _ ps, Spec.Keeps.refl ps, h, fun _ h => h, fun _ h _ _ => Or.inl h, fun _ _ h => h, [], [], by simp, rfl,
    by simp⟩

theorem BlockStep.trans {ps ps' ps'' : PStuff} (h : BlockStep objs base maxEncVar ps ps')
    (h' : BlockStep objs base maxEncVar ps' ps'') : BlockStep objs base maxEncVar ps ps'' where
  writes := h.writes.trans h'.writes
  keeps := h.keeps.trans h'.keeps
  state := h'.state
  agrees := fun ρ hρ => h.agrees ρ (h'.agrees ρ hρ)
  solver := fun p hp v hv => by
    rcases h'.solver p hp v hv with hp | hlt
    · exact h.solver p hp v hv
    · exact Or.inr hlt
  bounds := fun k d hk => h'.bounds k d (h.bounds k d hk)
  certified := by
    obtain ⟨c, hc⟩ := h.certified
    obtain ⟨c', hc'⟩ := h'.certified
    exact ⟨_, hc.trans hc' h'.keeps⟩

theorem Spec.ExtendOk.step {ps ps' : PStuff} (h : Spec.ExtendOk objs base ps ps') :
    BlockStep objs base maxEncVar ps ps' where
  writes := h.writes
  keeps := h.keeps
  state := h.state
  agrees := fun ρ hρ => by rw [h.values] at hρ; exact hρ
  solver := fun p hp v hv => by rw [h.values] at hp; exact Or.inl hp
  bounds := fun k d hk => by rw [h.bounds]; exact hk
  certified := h.certified

theorem reification_step {obj : Objective} {enc : EncView} {value v : Nat} {assumps : List Lit} {ps ps' : PStuff} {id : Nat}
    {encSum : (AnyVar → Bool) → Nat} {offset total : Nat}
    (h : certifyAssumpReification debug obj enc value ⟨v, false⟩ assumps ps = some (id, ps'))
    (hl : Spec.LogState objs base ps) (ho : objs[obj.idx]? = some obj) (hf : Spec.NewVar objs base maxEncVar ps v)
    (hK : Spec.ReifContract ps.proof.db enc obj value encSum offset total)
    (ha : Spec.ReifAssumps enc obj value ⟨v, false⟩ ps assumps) : BlockStep objs base maxEncVar ps ps' := by
  obtain ⟨h1, h2, h3, h4, -⟩ := reification_accepted h hl ho hf.fresh rfl hK ha
  obtain ⟨⟨new, hv, hnew⟩, hb⟩ := certifyAssumpReification_frame h
  refine ⟨h1, h2, h3, fun ρ hρ u b hu hk => ?_, fun p hp u hu => ?_, hb, _, h4⟩
  · refine hρ u b hu fun p hp => ?_
    rw [hv] at hp
    rcases List.mem_append.1 hp with hp | hp
    · exact hk p hp
    · rcases hnew p hp with he | ⟨k, he⟩
      · rw [he]
        intro hc
        cases hc
        exact hf.unset b hu
      · rw [he]; intro hc; cases hc
  · rw [hv] at hp
    rcases List.mem_append.1 hp with hp | hp
    · exact Or.inl hp
    · rcases hnew p hp with he | ⟨k, he⟩
      · rw [he] at hu
        cases hu
        exact Or.inr hf.above
      · rw [he] at hu; cases hu

/-! ## Literals of the cut and of the clause -/

/-- The entry of the cut for an objective is none, or a literal that is false if a literal of the clause is, by one of the
constraints with these identifiers. -/
def Linked (debug : Bool) (ps : PStuff) (cls : Clause) (ids : List Nat) (it : BlockItem) : Prop :=
  ∀ q dat q', (∀ k d, mapGet k ps.bounds = some d → mapGet k q.bounds = some d) →
    cutDatum debug it.enc.view it.obj it.cost q = some (dat, q') → ∀ x, dat.1 = some x →
      ∃ l ∈ cls, x = toAxm l ∨ ∃ id ∈ ids, ∃ c, ps.proof.db.get id = some c ∧
        ∀ ρ, c.Holds ρ → (toAxm l).val ρ = 0 → x.val ρ = 0

theorem Linked.mono {ps ps' : PStuff} {cls cls' : Clause} {ids ids' : List Nat} {it : BlockItem}
    (h : Linked debug ps cls ids it) (hk : Spec.Keeps ps ps')
    (hb : ∀ k d, mapGet k ps.bounds = some d → mapGet k ps'.bounds = some d) (hc : ∀ l ∈ cls, l ∈ cls')
    (hi : ∀ i ∈ ids, i ∈ ids') : Linked debug ps' cls' ids' it := by
  intro q dat q' hq hd x hx
  obtain ⟨l, hl, h1⟩ := h q dat q' (fun k d hkd => hq k d (hb k d hkd)) hd x hx
  refine ⟨l, hc l hl, ?_⟩
  rcases h1 with h1 | ⟨id, h1, c, h2, h3⟩
  · exact Or.inl h1
  · exact Or.inr ⟨id, hi id h1, c, hk _ _ h2, h3⟩

theorem linked_lower {ps : PStuff} {it : BlockItem} (h : it.cost ≤ it.obj.obj.lowerBound) : Linked debug ps [] [] it := by
  intro q dat q' _ hd x hx
  unfold cutDatum at hd
  rw [if_pos h] at hd
  split at hd
  · cases hd
  · cases hd; cases hx

theorem linked_single {ps : PStuff} {it : BlockItem} {a : Lit} (hlt : it.obj.obj.lowerBound < it.cost)
    (hs : Spec.SingleOk it a)
    (hbuf : it.obj.obj.nLits = 1 ∨ it.enc.view.nOutputs = 1 ∨ it.enc.view.bufferEmpty = true) :
    Linked debug ps [a] [] it := by
  intro q dat q' _ hd x hx
  refine ⟨a, List.mem_singleton.2 rfl, Or.inl ?_⟩
  unfold cutDatum at hd
  rw [if_neg (by omega)] at hd
  by_cases hn : it.obj.obj.nLits = 1
  · rw [if_pos hn] at hd
    cases hi : it.obj.obj.iter with
    | nil => rw [hi] at hd; cases hd
    | cons p r =>
      rw [hi] at hd
      cases hd
      cases hx
      rw [hs.lit hn p (by rw [hi]; exact List.mem_cons_self ..)]
  · rw [if_neg hn] at hd
    by_cases ho : it.enc.view.nOutputs = 1
    · rw [if_pos ho] at hd
      obtain ⟨ls, h1, hd⟩ := Option.bind_eq_some_iff.1 hd
      obtain ⟨l, h2, hd⟩ := Option.bind_eq_some_iff.1 hd
      cases hd
      cases hx
      rw [hs.output ho ls h1] at h2
      cases h2
      rfl
    · have hb : it.enc.view.bufferEmpty = true := by
        rcases hbuf with h | h | h
        · exact absurd h hn
        · exact absurd h ho
        · exact h
      rw [if_neg ho, if_pos hb] at hd
      obtain ⟨⟨olit, defs⟩, h1, hd⟩ := Option.bind_eq_some_iff.1 hd
      simp only at hd
      split at hd
      · cases hd
      · cases hd
        cases hx
        rw [hs.value hb olit defs h1, toAxm_not]

theorem linked_reified {it : BlockItem} {v : Nat} {assumps : List Lit} {ps ps' : PStuff} {id : Nat}
    {encSum : (AnyVar → Bool) → Nat} {offset total : Nat} (hlt : it.obj.obj.lowerBound < it.cost)
    (hn : it.obj.obj.nLits ≠ 1) (ho1 : it.enc.view.nOutputs ≠ 1)
    (h : certifyAssumpReification debug it.obj.obj it.enc.view it.cost ⟨v, false⟩ assumps ps = some (id, ps'))
    (hl : Spec.LogState objs base ps) (ho : objs[it.obj.obj.idx]? = some it.obj.obj)
    (hf : Spec.NewVar objs base maxEncVar ps v)
    (hK : Spec.ReifContract ps.proof.db it.enc.view it.obj.obj it.cost encSum offset total)
    (ha : Spec.ReifAssumps it.enc.view it.obj.obj it.cost ⟨v, false⟩ ps assumps) :
    Linked debug ps' [⟨v, false⟩] [id] it := by
  intro q dat q' hq hd x hx
  obtain ⟨-, -, -, -, h5, h6⟩ := reification_accepted h hl ho hf.fresh rfl hK ha
  refine ⟨_, List.mem_singleton.2 rfl, Or.inr ⟨id, List.mem_singleton.2 rfl, ?_⟩⟩
  unfold cutDatum at hd
  rw [if_neg (by omega), if_neg hn, if_neg ho1] at hd
  cases hb : it.enc.view.bufferEmpty with
  | true =>
    rw [if_pos hb] at hd
    obtain ⟨⟨olit, defs⟩, h1, hd⟩ := Option.bind_eq_some_iff.1 hd
    simp only at hd
    split at hd
    · cases hd
    · cases hd
      cases hx
      cases assumps with
      | nil =>
        unfold certifyAssumpReification at h
        rw [if_pos hb] at h
        cases h
      | cons a as =>
        refine ⟨_, h5 hb a rfl, fun ρ hh hz => ?_⟩
        obtain ⟨⟨⟨defs', h2⟩, -⟩, -⟩ := ha.1 hb
        rw [h1] at h2
        cases h2
        rw [holds_clauseCon_pair, toAxm_not_val] at hh
        rw [Axm.val_not, toAxm_not_val]
        omega
  | false =>
    rw [if_neg (by simp [hb])] at hd
    obtain ⟨ideal, g1, ⟨d₁, d₂, g2⟩, -⟩ := h6 hb
    have g3 : (getObjBound it.cost it.obj.obj q).1 = (ideal, d₁, d₂) := by
      unfold getObjBound
      rw [hq _ _ g2]
    generalize getObjBound it.cost it.obj.obj q = r at hd g3
    obtain ⟨⟨y, e₁, e₂⟩, q₁⟩ := r
    cases g3
    cases hd
    cases hx
    refine ⟨_, g1, fun ρ hh hz => ?_⟩
    rw [holds_pair] at hh
    rw [Axm.val_not]
    omega

/-! ## The clause -/

theorem dominatedBlock_spec : ∀ {items : List BlockItem} {st st' : PStuff × Nat} {cls : Clause} {ids : List Nat},
    dominatedBlock debug (items.map BlockItem.enc) (items.map BlockItem.obj) (items.map BlockItem.cost) st =
      some (cls, ids, st') →
    Spec.LogState objs base st.1 → (∀ it ∈ items, objs[it.obj.obj.idx]? = some it.obj.obj) →
    (∀ it ∈ items, Spec.Unbuffered it) → Spec.BlockAllowed objs base maxEncVar debug items st →
    BlockStep objs base maxEncVar st.1 st'.1 ∧
    (∀ it ∈ items, Spec.CutContract st'.1.proof.db (Spec.WitnessAgrees base st'.1.valueMap) it.enc.view it.obj it.cost
      it.encSum) ∧
    (∀ it ∈ items, Linked debug st'.1 cls ids it) ∧ ∀ i ∈ ids, (st'.1.proof.db.get i).isSome
  | [], st, st', cls, ids, h, hl, _, _, _ => by
    simp only [List.map_nil, dominatedBlock, Option.some.injEq, Prod.mk.injEq] at h
    obtain ⟨rfl, rfl, rfl⟩ := h
    exact ⟨BlockStep.refl hl, fun _ h => (by cases h), fun _ h => (by cases h), fun _ h => (by cases h)⟩
  | it :: items, st, st', cls, ids, h, hl, ho, hu, ha => by
    simp only [List.map_cons, dominatedBlock] at h
    unfold Spec.BlockAllowed at ha
    have ho' := fun i hi => ho i (List.mem_cons_of_mem _ hi)
    have hu' := fun i hi => hu i (List.mem_cons_of_mem _ hi)
    by_cases hskip : it.cost ≤ it.enc.view.offset ∨ it.enc.constant = true
    · rw [if_pos hskip] at ha
      obtain ⟨hK, hlb, ha⟩ := ha
      have hd : dominatedBlock debug (items.map BlockItem.enc) (items.map BlockItem.obj) (items.map BlockItem.cost) st =
          some (cls, ids, st') := by
        rcases hskip with hs | hs
        · rw [if_pos hs] at h; exact h
        · rw [if_pos hs, ite_self] at h; exact h
      obtain ⟨g1, g2, g3, g4⟩ := dominatedBlock_spec hd hl ho' hu' ha
      refine ⟨g1, List.forall_mem_cons.2 ⟨hK.keep g1.keeps g1.agrees, g2⟩, List.forall_mem_cons.2 ⟨?_, g3⟩, g4⟩
      exact (linked_lower hlb).mono (Spec.Keeps.refl _) (fun _ _ h => h) (fun _ h => by cases h) (fun _ h => by cases h)
    · rw [if_neg hskip] at ha
      rw [not_or] at hskip
      rw [if_neg hskip.1, if_neg hskip.2] at h
      obtain ⟨hx, hK, hlb, ha⟩ := ha
      obtain ⟨assumps, hen, h⟩ := Option.bind_eq_some_iff.1 h
      obtain ⟨ha1, ha2⟩ := ha assumps hen
      have s1 := hx.step (maxEncVar := maxEncVar)
      generalize it.enc.grow (it.cost - 1) st = st₁ at *
      by_cases hlen : assumps.length = 1
      · obtain ⟨a, rfl⟩ := List.length_eq_one_iff.1 hlen
        obtain ⟨hs, ha⟩ := ha1 a rfl
        simp only at h
        obtain ⟨⟨cls₁, ids₁, st₂⟩, h1, h⟩ := Option.bind_eq_some_iff.1 h
        simp only [Option.some.injEq, Prod.mk.injEq] at h
        obtain ⟨rfl, rfl, rfl⟩ := h
        obtain ⟨g1, g2, g3, g4⟩ := dominatedBlock_spec h1 s1.state ho' hu' ha
        refine ⟨s1.trans g1, List.forall_mem_cons.2 ⟨hK.keep g1.keeps g1.agrees, g2⟩, List.forall_mem_cons.2 ⟨?_, ?_⟩, g4⟩
        · refine (linked_single (ps := st₁.1) hlb hs ?_).mono g1.keeps g1.bounds (fun l hl => ?_) (fun _ h => by cases h)
          · by_contra hc
            rw [not_or, not_or] at hc
            exact hu it (List.mem_cons_self ..) (by omega) (by simpa using hskip.2) (by simpa using hc.2.2) hc.1 hc.2.1 [a] hen rfl
          · cases List.mem_singleton.1 hl
            exact List.mem_cons_self ..
        · intro i hi
          exact (g3 i hi).mono (Spec.Keeps.refl _) (fun _ _ h => h) (fun l hl => List.mem_cons_of_mem _ hl) (fun _ h => h)
      · obtain ⟨hn, hno, ⟨sum, offset, total, hR⟩, hA, hN, ha⟩ := ha2 hlen
        split at h
        · simp at hlen
        · split at h
          · cases h
          · obtain ⟨⟨id, ps₂⟩, h1, h⟩ := Option.bind_eq_some_iff.1 h
            obtain ⟨⟨cls₁, ids₁, st₂⟩, h2, h⟩ := Option.bind_eq_some_iff.1 h
            simp only [Option.some.injEq, Prod.mk.injEq] at h
            obtain ⟨rfl, rfl, rfl⟩ := h
            have hoi := ho it (List.mem_cons_self ..)
            have s2 := reification_step h1 s1.state hoi hN hR hA
            have L := linked_reified hlb hn hno h1 s1.state hoi hN hR hA
            obtain ⟨g1, g2, g3, g4⟩ := dominatedBlock_spec h2 s2.state ho' hu' (ha id ps₂ h1)
            have hget : (ps₂.proof.db.get id).isSome := by
              obtain ⟨-, -, -, -, h5, h6⟩ := reification_accepted h1 s1.state hoi hN.fresh rfl hR hA
              cases hb : it.enc.view.bufferEmpty with
              | true =>
                cases assumps with
                | nil =>
                  unfold certifyAssumpReification at h1
                  rw [if_pos hb] at h1
                  cases h1
                | cons a as => rw [h5 hb a rfl]; rfl
              | false =>
                obtain ⟨ideal, g, -⟩ := h6 hb
                rw [g]; rfl
            refine ⟨(s1.trans s2).trans g1, List.forall_mem_cons.2 ⟨(hK.keep s2.keeps s2.agrees).keep g1.keeps g1.agrees, g2⟩,
              List.forall_mem_cons.2 ⟨?_, ?_⟩, List.forall_mem_cons.2 ⟨?_, g4⟩⟩
            · refine L.mono g1.keeps g1.bounds (fun l hl => ?_) (fun i hi => ?_)
              · cases List.mem_singleton.1 hl
                exact List.mem_cons_self ..
              · cases List.mem_singleton.1 hi
                exact List.mem_cons_self ..
            · intro i hi
              exact (g3 i hi).mono (Spec.Keeps.refl _) (fun _ _ h => h) (fun l hl => List.mem_cons_of_mem _ hl)
                (fun l hl => List.mem_cons_of_mem _ hl)
            · obtain ⟨c, hc⟩ := Option.isSome_iff_exists.1 hget
              rw [g1.keeps _ _ hc]; rfl

/-! ## Entries of the cut -/

theorem cutDatum_bounds {enc : EncView} {o : PObj} {cst : Nat} {ps ps' : PStuff} {dat : Option (Axm AnyVar) × Option Nat}
    (h : cutDatum debug enc o cst ps = some (dat, ps')) {k : Nat × Nat} {d : Axm AnyVar × Nat × Nat}
    (hk : mapGet k ps.bounds = some d) : mapGet k ps'.bounds = some d := by
  unfold cutDatum at h
  split at h
  · split at h
    · cases h
    · cases h; exact hk
  · split at h
    · split at h
      · cases h
      · cases h; exact hk
    · split at h
      · obtain ⟨ls, _, h⟩ := Option.bind_eq_some_iff.1 h
        obtain ⟨l, _, h⟩ := Option.bind_eq_some_iff.1 h
        cases h; exact hk
      · split at h
        · obtain ⟨⟨olit, defs⟩, _, h⟩ := Option.bind_eq_some_iff.1 h
          simp only at h
          split at h
          · cases h
          · cases h; exact hk
        · have := getObjBound_bounds (value := cst) (obj := o.obj) hk
          generalize getObjBound cst o.obj ps = r at h this
          obtain ⟨⟨y, e₁, e₂⟩, q₁⟩ := r
          cases h
          exact this

theorem cutData_linked {ps : PStuff} {cls : Clause} {ids : List Nat} : ∀ {items : List BlockItem} {q q' : PStuff}
    {ds : List (Option (Axm AnyVar) × Option Nat)},
    cutData debug ((items.map BlockItem.enc).map BlockEnc.view) (items.map BlockItem.obj) (items.map BlockItem.cost) q =
      some (ds, q') →
    (∀ k d, mapGet k ps.bounds = some d → mapGet k q.bounds = some d) → (∀ it ∈ items, Linked debug ps cls ids it) →
    ∀ x ∈ ds.filterMap Prod.fst, ∃ l ∈ cls, x = toAxm l ∨ ∃ id ∈ ids, ∃ c, ps.proof.db.get id = some c ∧
        ∀ ρ, c.Holds ρ → (toAxm l).val ρ = 0 → x.val ρ = 0
  | [], q, q', ds, h, _, _, x, hx => by
    simp only [List.map_nil, cutData, Option.some.injEq, Prod.mk.injEq] at h
    obtain ⟨rfl, -⟩ := h
    cases hx
  | it :: items, q, q', ds, h, hb, hL, x, hx => by
    simp only [List.map_cons, cutData] at h
    obtain ⟨⟨d, q₁⟩, h1, h⟩ := Option.bind_eq_some_iff.1 h
    obtain ⟨⟨ds', q₂⟩, h2, h⟩ := Option.bind_eq_some_iff.1 h
    simp only [Option.some.injEq, Prod.mk.injEq] at h
    obtain ⟨rfl, rfl⟩ := h
    obtain ⟨e, he, hxe⟩ := List.mem_filterMap.1 hx
    rcases List.mem_cons.1 he with rfl | he
    · exact hL it (List.mem_cons_self ..) q e q₁ hb h1 x hxe
    · exact cutData_linked h2 (fun k d hk => cutDatum_bounds h1 (hb k d hk)) (fun i hi => hL i (List.mem_cons_of_mem _ hi)) x
        (List.mem_filterMap.2 ⟨e, he, hxe⟩)

theorem mapM_get {db : ConDb AnyVar} : ∀ {ids : List Nat}, (∀ i ∈ ids, (db.get i).isSome) →
    ∃ hs, (ids.map CId.abs).mapM db.find = some hs ∧ ∀ i ∈ ids, ∀ c, db.get i = some c → c ∈ hs
  | [], _ => ⟨[], rfl, fun _ h => by cases h⟩
  | i :: ids, h => by
    obtain ⟨hs, h1, h2⟩ := mapM_get fun j hj => h j (List.mem_cons_of_mem _ hj)
    obtain ⟨c, hc⟩ := Option.isSome_iff_exists.1 (h i (List.mem_cons_self ..))
    refine ⟨c :: hs, ?_, fun j hj d hd => ?_⟩
    · rw [List.map_cons, List.mapM_cons, ConDb.find_abs, hc, h1]; rfl
    · rcases List.mem_cons.1 hj with rfl | hj
      · rw [hc] at hd; cases hd
        exact List.mem_cons_self ..
      · exact List.mem_cons_of_mem _ (h2 j hj d hd)

/-! ## Lines are only added -/

/-- Lines were written, correct or not. -/
def Logs (ps ps' : PStuff) : Prop :=
  ∃ new, ps'.proof.steps = ps.proof.steps ++ new ∧ ps'.proof.db = new.foldl (fun db st => st.apply db) ps.proof.db

theorem Logs.refl (ps : PStuff) : Logs ps ps := ⟨[], by simp, rfl⟩

theorem Logs.trans {ps ps' ps'' : PStuff} (h : Logs ps ps') (h' : Logs ps' ps'') : Logs ps ps'' := by
  obtain ⟨n, h1, h2⟩ := h
  obtain ⟨n', h3, h4⟩ := h'
  exact ⟨n ++ n', by rw [h3, h1, List.append_assoc], by rw [h4, h2, List.foldl_append]⟩

theorem getObjBound_logs (value : Nat) (obj : Objective) (ps : PStuff) : Logs ps (getObjBound value obj ps).2 := by
  cases hm : mapGet (obj.idx, value) ps.bounds with
  | some d => unfold getObjBound; rw [hm]; exact Logs.refl ps
  | none =>
    unfold getObjBound; rw [hm]
    exact ⟨_, by simp [PStuff.push, Pf.push, Pf.write]; rfl, rfl⟩

theorem cutDatum_logs {enc : EncView} {o : PObj} {cst : Nat} {ps ps' : PStuff} {dat : Option (Axm AnyVar) × Option Nat}
    (h : cutDatum debug enc o cst ps = some (dat, ps')) : Logs ps ps' := by
  unfold cutDatum at h
  split at h
  · split at h
    · cases h
    · cases h; exact Logs.refl ps
  · split at h
    · split at h
      · cases h
      · cases h; exact Logs.refl ps
    · split at h
      · obtain ⟨ls, _, h⟩ := Option.bind_eq_some_iff.1 h
        obtain ⟨l, _, h⟩ := Option.bind_eq_some_iff.1 h
        cases h; exact Logs.refl ps
      · split at h
        · obtain ⟨⟨olit, defs⟩, _, h⟩ := Option.bind_eq_some_iff.1 h
          simp only at h
          split at h
          · cases h
          · cases h; exact Logs.refl ps
        · have := getObjBound_logs cst o.obj ps
          generalize getObjBound cst o.obj ps = r at h this
          obtain ⟨⟨y, e₁, e₂⟩, q₁⟩ := r
          cases h
          exact this

theorem cutData_logs : ∀ {encs : List EncView} {os : List PObj} {costs : List Nat} {ps ps' : PStuff}
    {ds : List (Option (Axm AnyVar) × Option Nat)}, cutData debug encs os costs ps = some (ds, ps') → Logs ps ps'
  | enc :: encs, o :: os, c :: costs, ps, ps', ds, h => by
    simp only [cutData] at h
    obtain ⟨⟨d, q₁⟩, h1, h⟩ := Option.bind_eq_some_iff.1 h
    obtain ⟨⟨ds', q₂⟩, h2, h⟩ := Option.bind_eq_some_iff.1 h
    simp only [Option.some.injEq, Prod.mk.injEq] at h
    obtain ⟨rfl, rfl⟩ := h
    exact (cutDatum_logs h1).trans (cutData_logs h2)
  | [], _, _, ps, ps', ds, h => by
    simp only [cutData, Option.some.injEq, Prod.mk.injEq] at h
    rw [h.2]; exact Logs.refl _
  | _ :: _, [], _, ps, ps', ds, h => by
    simp only [cutData, Option.some.injEq, Prod.mk.injEq] at h
    rw [h.2]; exact Logs.refl _
  | _ :: _, _ :: _, [], ps, ps', ds, h => by
    simp only [cutData, Option.some.injEq, Prod.mk.injEq] at h
    rw [h.2]; exact Logs.refl _

theorem certifyPminCut_logs {encs : List EncView} {os : List PObj} {costs : List Nat} {witness : Assignment}
    {cutId : Nat} {ps ps' : PStuff} (h : certifyPminCut debug encs os costs witness maxEncVar ps = some (cutId, ps')) :
    Logs ps ps' := by
  obtain ⟨ds, ps₁, ω, h1, -, -, h4, h5, -⟩ := certifyPminCut_run h
  refine (cutData_logs h1).trans ⟨_, h4, ?_⟩
  rw [h5]; rfl

/-- If the lines are accepted, then the last one is correct after all others. -/
theorem Logs.last {ord} {ps ps₁ ps' : PStuff} {s : ProofStep AnyVar} (h : Logs ps ps₁)
    (h1 : ps'.proof.steps = ps₁.proof.steps ++ [s]) (hw : Spec.Writes ord ps ps') : Spec.StepOk ord ps₁.proof.db s := by
  obtain ⟨n, g1, g2⟩ := h
  obtain ⟨n', g3, g4, -⟩ := hw
  rw [h1, g1, List.append_assoc, List.append_cancel_left_eq] at g3
  subst g3
  rw [g2]
  clear g1 g2 h1
  generalize ps.proof.db = db at *
  induction n generalizing db with
  | nil => exact g4.1
  | cons a n ih => exact ih _ g4.2

end Scuttle
