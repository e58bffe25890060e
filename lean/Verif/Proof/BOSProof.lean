import Verif.Proof.Harvest
import Verif.Model.BOS

/-!
# Rules for linear search and BiOptSat
-/

set_option linter.unusedSectionVars false

namespace Scuttle

open Spec

variable {P C : Type} [UbEnc P] [UbEnc C] [LawfulUbEnc P] [LawfulUbEnc C]
variable {env : Env} {E : Stop → Slv P C → Prop} {s : Slv P C} {pb : Pb} {A : Asg → Prop}

/-! ## Assumptions of a linear search -/

/-- A step that extends at most the encoding with index `ei`. -/
structure EiStep (ei : Nat) (s s' : Slv P C) : Prop where
  step : Step s s'
  others : ∀ j, ei ≠ j → s'.encs[j]? = s.encs[j]?
  objs : s'.k.objs = s.k.objs

theorem EiStep.refl (ei : Nat) (s : Slv P C) : EiStep ei s s := ⟨Step.refl s, fun _ _ => rfl, rfl⟩

theorem EiStep.trans {ei : Nat} {s s' s'' : Slv P C} (h : EiStep ei s s') (h' : EiStep ei s' s'') : EiStep ei s s'' :=
  ⟨h.step.trans h'.step, fun j hj => (h'.others j hj).trans (h.others j hj), h'.objs.trans h.objs⟩

theorem Same.eiStep {ei : Nat} {s s' : Slv P C} (h : Same s s') : EiStep ei s s' :=
  ⟨h.step, fun _ _ => by rw [h.encs], h.objs⟩

/-- Assuming the literals means `R`. -/
structure BaseLits (pb : Pb) (s : Slv P C) (R : Asg → Prop) (base : List Lit) : Prop where
  below : LitsBelow s.k.vm.nextVar base
  sound : ∀ m, cnfEval m s.k.db = true → cubeEval m base = true → R m
  exact : ∀ m, XModel s m → R m → cubeEval m base = true

/-- As `BaseLits`, whatever is done to the encoding with index `ei`. -/
def StableBase (pb : Pb) (ei : Nat) (s : Slv P C) (R : Asg → Prop) (base : List Lit) : Prop :=
  ∀ s', EiStep ei s s' → BaseLits pb s' R base

theorem StableBase.step {ei : Nat} {s s' : Slv P C} {R base} (h : StableBase pb ei s R base) (hs : EiStep ei s s') :
    StableBase pb ei s' R base := fun s'' h' => h s'' (hs.trans h')

/-- The restriction only depends on variables of the problem. -/
def Local (pb : Pb) (R : Asg → Prop) : Prop := ∀ t m, AgreeBelow pb.n0 t m → (R t ↔ R m)

/-- A constant encoding is only used for an objective that is zero on all solutions. -/
def ConstZero (pb : Pb) (s : Slv P C) : Prop :=
  ∀ (i : Nat) (e : ObjEnc P C) (o : Objective), s.encs[i]? = some e → pb.objs[i]? = some o → e.isConstant = true →
    ∀ t, pb.Sol t → icost o t = 0

theorem ConstZero.encStep {s s' : Slv P C} (h : ConstZero pb s) (he : EncStep s s') : ConstZero pb s' := by
  intro i e o hi ho hc
  have hlt : i < s.encs.length := by
    rw [← he.len]; exact (List.getElem?_eq_some_iff.1 hi).1
  obtain ⟨e', h1, -, h3, -, -⟩ := he.enc i _ (List.getElem?_eq_getElem hlt)
  rw [hi, Option.some.injEq] at h1
  subst h1
  exact h i _ o (List.getElem?_eq_getElem hlt) ho (by rw [← h3]; exact hc)

/-! ## Linear search -/

/-- A solution found by a linear search. -/
structure Found (pb : Pb) (A R : Asg → Prop) (o : Objective) (c : Nat) (sol : Assignment) (t : Asg) (n1 : Nat) : Prop where
  eq : sol = Assignment.ofModel t n1
  vars : pb.n0 ≤ n1
  sol : pb.Sol t
  allowed : A t
  base : R t
  cost : icost o t = c

/-- How a linear search may stop early. -/
structure LinsuStop (pb : Pb) (env : Env) (A : Asg → Prop) (fuel : Nat) (s : Slv P C) (e : Stop) (s' : Slv P C) : Prop where
  base : IoBase pb.objs.length s'.io
  panic : e ≠ .panic
  error : e = .error → LogFail env
  fuel : e = .fuel → fuel ≤ pb.sumMax
  limit : e ≠ .terminated .ppLimit ∧ e ≠ .terminated .solsLimit
  grow : Grow s s'
  inv : DBInv pb A s'

/-- Every remaining solution has at least cost `c`. -/
def Minimal (pb : Pb) (A R : Asg → Prop) (o : Objective) (c : Nat) : Prop := ∀ t, pb.Sol t → A t → R t → c ≤ icost o t

theorem le_sum_of_mem {l : List Nat} {x : Nat} (h : x ∈ l) : x ≤ l.sum := by
  induction l with
  | nil => simp at h
  | cons y l ih =>
    simp only [List.mem_cons] at h
    simp only [List.sum_cons]
    rcases h with rfl | h
    · omega
    · have := ih h; omega

theorem icost_le_sumMax {o : Objective} (ho : o ∈ pb.objs) (t : Asg) : icost o t ≤ pb.sumMax := by
  refine Nat.le_trans (icost_le_maxCost o t) ?_
  unfold Pb.sumMax
  exact le_sum_of_mem (List.mem_map_of_mem ho)

theorem costOf_ofModel' (wf : pb.WF) {o : Objective} (ho : o ∈ pb.objs) {n : Nat} (hn : pb.n0 ≤ n) (m : Asg) :
    o.costOf (Assignment.ofModel m n) = icost o m :=
  Objective.costOf_ofModel o m n fun p hp => Nat.lt_of_lt_of_le (wf.objs o ho p hp) hn

theorem wp_getCost {Q : Nat → Slv P C → Prop} (wf : pb.WF) (hi : DBInv pb A s) {oi : Nat} {o : Objective}
    (ho : pb.objs[oi]? = some o) {n : Nat} (hn : pb.n0 ≤ n) (m : Asg) (hQ : Q (icost o m) s) :
    wp env (getCost oi (Assignment.ofModel m n)) Q E s := by
  unfold getCost
  rw [wp_bind, wp_getS, wp_bind, hi.objs, ho, wp_unwrap_some, wp_pure, costOf_ofModel' wf (List.mem_of_getElem? ho) hn]
  exact hQ

/-- The state between iterations of the linear search: a bound and maybe a solution that attains it. -/
def LinsuState (pb : Pb) (A R : Asg → Prop) (o : Objective) (st : Nat × Option Assignment) : Prop :=
  match st.2 with
  | some sol => ∃ t n1, Found pb A R o st.1 sol t n1
  | none => st.1 ≤ pb.sumMax ∧ ∃ t, pb.Sol t ∧ A t ∧ R t ∧ icost o t ≤ st.1

theorem LinsuState.le {R : Asg → Prop} {o : Objective} {st : Nat × Option Assignment} (ho : o ∈ pb.objs)
    (h : LinsuState pb A R o st) : st.1 ≤ pb.sumMax := by
  unfold LinsuState at h
  split at h
  · obtain ⟨t, n1, hf⟩ := h
    rw [← hf.cost]
    exact icost_le_sumMax ho t
  · exact h.1

/-- There is a solution within the bound. -/
theorem LinsuState.witness {R : Asg → Prop} {o : Objective} {st : Nat × Option Assignment}
    (h : LinsuState pb A R o st) : ∃ t, pb.Sol t ∧ A t ∧ R t ∧ icost o t ≤ st.1 := by
  unfold LinsuState at h
  split at h
  · obtain ⟨t, n1, hf⟩ := h
    exact ⟨t, hf.sol, hf.allowed, hf.base, Nat.le_of_eq hf.cost⟩
  · exact h.2

theorem wp_linsuLoop {Q : Nat × Option Assignment → Slv P C → Prop} {R : Asg → Prop} {base : List Lit} (wf : pb.WF)
    (orc : OracleOK env) (hio : IoInv env pb.objs.length s.io) (hi : DBInv pb A s) (hz : ConstZero pb s)
    (hR : Local pb R) {oi ei : Nat} {o : Objective} (hoi : pb.objs[oi]? = some o) (hei : pb.objs[ei]? = some o)
    (hb : StableBase pb ei s R base) (lb : Nat) (hlb : ∀ e, s.encs[ei]? = some e → e.offset ≤ lb)
    (st : Nat × Option Assignment) (hst : LinsuState pb A R o st) (fuel : Nat)
    (hQ : ∀ st' s', EiStep ei s s' → DBInv pb A s' → IoInv env pb.objs.length s'.io → LinsuState pb A R o st' →
      (st'.2 = none → st.2 = none) → (st'.1 ≤ lb ∨ Minimal pb A R o st'.1) → Q st' s')
    (hE : ∀ e s', LinsuStop pb env A fuel s e s' → E e s') :
    wp env (loopM (linsuBody oi ei base lb) fuel st) Q E s := by
  let I : Nat × Option Assignment → Slv P C → Prop := fun st' s' =>
    EiStep ei s s' ∧ DBInv pb A s' ∧ IoInv env pb.objs.length s'.io ∧ LinsuState pb A R o st' ∧
      (st'.2 = none → st.2 = none)
  refine wp_loop I (fun st' _ => st'.1) pb.sumMax fuel _ _ ?_ ?_ ?_ ?_
  · rintro st' s' ⟨-, -, -, h, -⟩
    exact h.le (List.mem_of_getElem? hoi)
  · rintro st1 s1 ⟨hs1, hi1, hio1, hst1, hnone1⟩
    have hstop : ∀ e s', Step s1 s' → DBInv pb A s' → IoStopQ env pb.objs.length e s' → E e s' := by
      intro e s' h1 h2 h3
      have h4 := h3.1.2
      refine hE e s' ⟨h3.1.1, ?_, ?_, ?_, h3.2, hs1.step.toGrow.trans h1.toGrow, h2⟩
      · rintro rfl; exact h4
      · rintro rfl; exact h4
      · rintro rfl; exact h4.elim
    unfold linsuBody
    split
    · next hgt =>
      obtain ⟨e, he⟩ := hi1.enc_exists hei
      have hoff : e.offset ≤ lb := by
        obtain ⟨e0, he0⟩ := hi.enc_exists hei
        obtain ⟨e', h1, h2, -, -, -⟩ := hs1.step.enc.enc ei e0 he0
        rw [he, Option.some.injEq] at h1
        subst h1
        rw [h2]; exact hlb e0 he0
      rw [wp_bind]
      refine wp_extendEncoding' wf hi1 ei (st1.1 - 1) (st1.1 - 1 + 1) he ?_
      intro s2 e2 hs2 hoth2 hi2 hio2 he2 hoff2 hcon2 _ _ hready2
      rw [wp_bind]
      refine wp_encAt he2 ?_
      obtain ⟨ls, hls, hlb2, hsnd, hex, -, -⟩ := ObjEnc.enforceUb_spec e2 (st1.1 - 1) s2.k.vm.nextVar
        (hready2 _ (by omega) (by omega) (by omega)) (hi2.below ei e2 he2)
      rw [wp_bind, hls, wp_unwrap_some, wp_bind]
      have hei2 : EiStep ei s1 s2 := ⟨hs2, hoth2, by rw [hi2.objs, hi1.objs]⟩
      have hb2 : BaseLits pb s2 R base := hb s2 (hs1.trans hei2)
      have hz2 := hz.encStep (hs1.step.enc.trans hs2.enc) ei e2 o he2 hei
      refine wp_solveAssumps orc (base ++ ls) hi2.unlimited (by rw [hio2]; exact hio1) ?_ ?_
        (fun e s' h he => hstop e s' (hs2.trans h.step) (hi2.same h) he)
      · intro m s3 hs3 hos3 hio3 hmdb hmas
        rw [cubeEval_append] at hmas
        have hi3 := hi2.same hs3
        simp only
        rw [wp_bind]
        refine wp_oracleSolution hos3 (by have := hi3.next; have := hi3.encVar; omega) ?_
        rw [wp_bind]
        refine wp_getCost wf hi3 hoi hi3.next m ?_
        have hlt : icost o m ≤ st1.1 - 1 := by
          by_cases hc : e2.isConstant = true
          · rw [hz2 hc m (hi2.sound m hmdb).1]; omega
          · exact hsnd o m (by simpa using hc) (hi2.encSound m hmdb ei e2 o he2 hei) hmas.2
        rw [wp_bind]
        refine wp_dbg (by simp only [decide_eq_true_eq]; omega) ?_
        rw [wp_bind, wp_getS, wp_bind, costsOf_ofModel hi3 wf hi3.next]
        refine wp_logCandidate _ _ (by simp) hio3 ?_
          (fun e s' h he => hstop e s' (hs2.trans (hs3.step.trans h.step)) (hi3.same h) he)
        intro s4 hs4 _ hio4 _
        rw [wp_pure]
        refine ⟨⟨hs1.trans (hei2.trans (hs3.eiStep.trans hs4.eiStep)), hi3.same hs4, hio4, ?_, by simp⟩, ?_⟩
        · exact ⟨m, _, rfl, hi3.next, (hi2.sound m hmdb).1, (hi2.sound m hmdb).2, hb2.sound m hmdb hmas.1, rfl⟩
        · show icost o m < st1.1
          omega
      · intro core s3 hs3 _ hio3 hcsub himp
        simp only
        rw [wp_pure]
        refine hQ st1 s3 (hs1.trans (hei2.trans hs3.eiStep)) (hi2.same hs3) hio3 hst1 hnone1 (.inr ?_)
        intro t ht hA hRt
        by_contra hlt
        obtain ⟨m, hm1, hm2⟩ := hi2.ext t ht hA
        have h1 := himp m hm2.db
        have hc : icost o m ≤ st1.1 - 1 := by
          rw [← Pb.icost_agree wf hm1 (List.mem_of_getElem? hoi)]; omega
        rw [core_false hcsub] at h1
        · simp at h1
        · rw [cubeEval_append]
          exact ⟨hb2.exact m hm2 ((hR t m hm1).1 hRt), hex o m (hm2.exact ei e2 o he2 (by rw [hi2.objs]; exact hei)) hc⟩
    · next hgt =>
      rw [wp_pure]
      exact hQ st1 s1 hs1 hi1 hio1 hst1 hnone1 (.inl (by omega))
  · rintro st1 s1 ⟨hs1, hi1, hio1, hst1, hnone1⟩ hf
    exact hE _ s1 ⟨hio1.base, by simp, by simp, fun _ => hf, by simp, hs1.step.toGrow, hi1⟩
  · exact ⟨EiStep.refl ei s, hi, hio, hst, fun h => h⟩

/-- What a linear search returns. -/
structure LinsuDone (pb : Pb) (A R : Asg → Prop) (o : Objective) (lb : Nat) (ub : Option (Nat × Option Assignment))
    (cost : Nat) (sol : Assignment) : Prop where
  found : ∃ t n1 c, Found pb A R o c sol t n1 ∧ c ≤ cost ∧ ((∀ b, ub ≠ some (b, none)) → c = cost)
  minimal : cost ≤ lb ∨ Minimal pb A R o cost

theorem wp_linsuFinish {Q : Nat × Assignment → Slv P C → Prop} {R : Asg → Prop} {base : List Lit} (wf : pb.WF)
    (orc : OracleOK env) (hio : IoInv env pb.objs.length s.io) (hi : DBInv pb A s) (hz : ConstZero pb s)
    (hR : Local pb R) {oi ei : Nat} {o : Objective} (hoi : pb.objs[oi]? = some o) (hei : pb.objs[ei]? = some o)
    (hb : StableBase pb ei s R base) (lb : Nat)
    (st : Nat × Option Assignment) (hst : LinsuState pb A R o st) (fuel : Nat)
    (ub : Option (Nat × Option Assignment)) (hub : st.2 = none → ∃ b, ub = some (b, none))
    (hmin : st.1 ≤ lb ∨ Minimal pb A R o st.1)
    (hQ : ∀ cost sol s', EiStep ei s s' → DBInv pb A s' → IoInv env pb.objs.length s'.io →
      LinsuDone pb A R o lb ub cost sol → Q (cost, sol) s')
    (hE : ∀ e s', LinsuStop pb env A fuel s e s' → E e s') :
    wp env (linsuFinish ei base st) Q E s := by
  have hstop : ∀ e s', Step s s' → DBInv pb A s' → IoStopQ env pb.objs.length e s' → E e s' := by
    intro e s' h1 h2 h3
    have h4 := h3.1.2
    refine hE e s' ⟨h3.1.1, ?_, ?_, ?_, h3.2, h1.toGrow, h2⟩
    · rintro rfl; exact h4
    · rintro rfl; exact h4
    · rintro rfl; exact h4.elim
  obtain ⟨c, osol⟩ := st
  cases osol with
  | some sol =>
    obtain ⟨t, n1, hf⟩ := hst
    unfold linsuFinish
    simp only
    rw [wp_bind]
    refine wp_logEvent _ hio ?_ (fun e s' h he => hstop e s' h.step (hi.same h) he)
    intro s1 hs1 _ hio1
    rw [wp_pure]
    exact hQ c sol s1 hs1.eiStep (hi.same hs1) hio1 ⟨⟨t, n1, c, hf, Nat.le_refl _, fun _ => rfl⟩, hmin⟩
  | none =>
    obtain ⟨hle, t0, ht0, hA0, hR0, hc0⟩ := hst
    unfold linsuFinish
    simp only
    obtain ⟨e, he⟩ := hi.enc_exists hei
    have hoff := (hi.encFor ei e o he hei).offset t0 ht0
    rw [wp_bind]
    refine wp_extendEncoding' wf hi ei c (c + 1) he ?_
    intro s2 e2 hs2 hoth2 hi2 hio2 he2 hoff2 hcon2 _ _ hready2
    rw [wp_bind]
    refine wp_encAt he2 ?_
    simp only at hc0
    obtain ⟨ls, hls, hlb2, hsnd, hex, -, -⟩ := ObjEnc.enforceUb_spec e2 c s2.k.vm.nextVar
      (hready2 _ (by omega) (by omega) (by omega)) (hi2.below ei e2 he2)
    rw [wp_bind, hls, wp_unwrap_some, wp_bind]
    have hei2 : EiStep ei s s2 := ⟨hs2, hoth2, by rw [hi2.objs, hi.objs]⟩
    have hb2 : BaseLits pb s2 R base := hb s2 hei2
    have hz2 := hz.encStep hs2.enc ei e2 o he2 hei
    refine wp_solveAssumps orc (base ++ ls) hi2.unlimited (by rw [hio2]; exact hio) ?_ ?_
      (fun e s' h he => hstop e s' (hs2.trans h.step) (hi2.same h) he)
    · intro m s3 hs3 hos3 hio3 hmdb hmas
      rw [cubeEval_append] at hmas
      have hi3 := hi2.same hs3
      rw [wp_bind]
      refine wp_dbg rfl ?_
      rw [wp_bind]
      refine wp_oracleSolution hos3 (by have := hi3.next; have := hi3.encVar; omega) ?_
      rw [wp_bind]
      refine wp_logEvent _ hio3 ?_
        (fun e s' h he => hstop e s' (hs2.trans (hs3.step.trans h.step)) (hi3.same h) he)
      intro s4 hs4 _ hio4
      rw [wp_pure]
      have hlt : icost o m ≤ c := by
        by_cases hc : e2.isConstant = true
        · rw [hz2 hc m (hi2.sound m hmdb).1]; omega
        · exact hsnd o m (by simpa using hc) (hi2.encSound m hmdb ei e2 o he2 hei) hmas.2
      refine hQ c _ s4 (hei2.trans (hs3.eiStep.trans hs4.eiStep)) (hi3.same hs4) hio4 ⟨⟨m, _, icost o m,
        ⟨rfl, hi3.next, (hi2.sound m hmdb).1, (hi2.sound m hmdb).2, hb2.sound m hmdb hmas.1, rfl⟩, hlt, ?_⟩, hmin⟩
      intro h
      obtain ⟨b, hb⟩ := hub rfl
      exact absurd hb (h b)
    · intro core s3 hs3 _ hio3 hcsub himp
      exfalso
      obtain ⟨m, hm1, hm2⟩ := hi2.ext t0 ht0 hA0
      have h1 := himp m hm2.db
      have hc : icost o m ≤ c := by
        rw [← Pb.icost_agree wf hm1 (List.mem_of_getElem? hoi)]; exact hc0
      rw [core_false hcsub] at h1
      · simp at h1
      · rw [cubeEval_append]
        exact ⟨hb2.exact m hm2 ((hR t0 m hm1).1 hR0), hex o m (hm2.exact ei e2 o he2 (by rw [hi2.objs]; exact hei)) hc⟩

/-- What is known about the given upper bound: a bound without solution must be attainable. -/
def UbOK (pb : Pb) (A R : Asg → Prop) (o : Objective) (ub : Option (Nat × Option Assignment)) : Prop :=
  ∀ st, ub = some st → LinsuState pb A R o st

theorem LinsuStop.step {fuel e} {s s1 s' : Slv P C} (hs : Step s s1) (h : LinsuStop pb env A fuel s1 e s') :
    LinsuStop pb env A fuel s e s' := { h with grow := hs.toGrow.trans h.grow }

theorem wp_linsu {Q : Option (Nat × Assignment) → Slv P C → Prop} {R : Asg → Prop} {base : List Lit} (wf : pb.WF)
    (orc : OracleOK env) (tok : TightOK env pb) (hio : IoInv env pb.objs.length s.io) (hi : DBInv pb A s)
    (hz : ConstZero pb s)
    (hR : Local pb R) {oi ei : Nat} {o : Objective} (hoi : pb.objs[oi]? = some o) (hei : pb.objs[ei]? = some o)
    (hb : StableBase pb ei s R base) (lb : Option Nat) (hlb : ∀ e, s.encs[ei]? = some e → e.offset ≤ lb.getD 0)
    (ub : Option (Nat × Option Assignment)) (hub : UbOK pb A R o ub)
    (hRt : ub = none → env.tighten = true → ∀ t t', (∀ o ∈ pb.objs, icost o t' ≤ icost o t) → R t → R t') (fuel : Nat)
    (hQ : ∀ cost sol s', EiStep ei s s' → DBInv pb A s' → IoInv env pb.objs.length s'.io →
      LinsuDone pb A R o (lb.getD 0) ub cost sol → Q (some (cost, sol)) s')
    (hnone : ∀ s', ub = none → EiStep ei s s' → DBInv pb A s' → IoInv env pb.objs.length s'.io →
      (∀ t, pb.Sol t → A t → ¬ R t) → Q none s')
    (hE : ∀ e s', LinsuStop pb env A fuel s e s' → E e s') :
    wp env (linsu fuel oi ei base ub lb) Q E s := by
  unfold linsu
  have hstop : ∀ e s', Same s s' → IoStopQ env pb.objs.length e s' → E e s' := by
    intro e s' h1 h3
    have h4 := h3.1.2
    refine hE e s' ⟨h3.1.1, ?_, ?_, ?_, h3.2, h1.step.toGrow, hi.same h1⟩
    · rintro rfl; exact h4
    · rintro rfl; exact h4
    · rintro rfl; exact h4.elim
  rw [wp_bind]
  refine wp_logEvent _ hio ?_ hstop
  intro s1 hs1 _ hio1
  have hi1 := hi.same hs1
  have hlb1 : ∀ {s'}, EiStep ei s s' → ∀ e, s'.encs[ei]? = some e → e.offset ≤ lb.getD 0 := by
    intro s' h e he
    obtain ⟨e0, he0⟩ := hi.enc_exists hei
    obtain ⟨e', h1, h2, -, -, -⟩ := h.step.enc.enc ei e0 he0
    rw [he, Option.some.injEq] at h1
    subst h1
    rw [h2]; exact hlb e0 he0
  cases ub with
  | some bound =>
    simp only
    rw [wp_bind]
    refine wp_linsuLoop wf orc hio1 hi1 (hz.encStep hs1.step.enc) hR hoi hei (hb.step hs1.eiStep) (lb.getD 0)
      (hlb1 hs1.eiStep) bound (hub bound rfl) fuel ?_ (fun e s' h => hE e s' (h.step hs1.step))
    intro st2 s2 hs2 hi2 hio2 hst2 hn2 hm2
    have h02 := hs1.eiStep.trans hs2
    rw [wp_bind]
    refine wp_linsuFinish wf orc hio2 hi2 (hz.encStep h02.step.enc) hR hoi hei (hb.step h02) (lb.getD 0)
      st2 hst2 fuel (some bound) ?_ hm2 ?_ (fun e s' h => hE e s' (h.step h02.step))
    · intro h
      obtain ⟨b, x⟩ := bound
      have := hn2 h
      simp only at this
      exact ⟨b, by rw [this]⟩
    · intro cost sol s3 hs3 hi3 hio3 hd
      rw [wp_pure]
      exact hQ cost sol s3 (h02.trans hs3) hi3 hio3 hd
  | none =>
    simp only
    rw [wp_bind]
    have hbl := hb s1 hs1.eiStep
    refine wp_solveAssumps orc base hi1.unlimited hio1 ?_ ?_ (fun e s' h he => hstop e s' (hs1.trans h) he)
    · intro m s2 hs2 hos2 hio2 hmdb hmas
      have hi2 := hi1.same hs2
      rw [if_neg (by simp), wp_bind]
      refine wp_oracleSolution hos2 (by have := hi2.next; have := hi2.encVar; omega) ?_
      rw [wp_bind]
      refine wp_getCostTight wf orc tok hio2 hi2 hoi hi2.next hos2 (by rw [hs2.db]; exact hmdb) true ?_
        (fun e s' h he => hstop e s' ((hs1.trans hs2).trans h) he)
      intro m' sg hg hosg hiog hmdb' hle' hsm'
      have hig := hi2.same hg
      have hmS' := hig.sound m' hmdb'
      have hRm : R m := hbl.sound m hmdb hmas
      have hRm' : R m' := by
        cases ht : env.tighten with
        | false => rw [hsm' ht]; exact hRm
        | true => exact hRt rfl ht m m' hle' hRm
      have h02 := ((hs1.trans hs2).trans hg).eiStep (ei := ei)
      rw [wp_bind]
      refine wp_linsuLoop wf orc hiog hig (hz.encStep h02.step.enc) hR hoi hei (hb.step h02) (lb.getD 0)
        (hlb1 h02) _ ?_ fuel ?_ (fun e s' h => hE e s' (h.step h02.step))
      · exact ⟨m', _, rfl, hi2.next, hmS'.1, hmS'.2, hRm', rfl⟩
      intro st3 s3 hs3 hi3 hio3 hst3 hn3 hm3
      have h03 := h02.trans hs3
      rw [wp_bind]
      refine wp_linsuFinish wf orc hio3 hi3 (hz.encStep h03.step.enc) hR hoi hei (hb.step h03) (lb.getD 0)
        st3 hst3 fuel none ?_ hm3 ?_ (fun e s' h => hE e s' (h.step h03.step))
      · intro h
        have := hn3 h
        simp at this
      · intro cost sol s4 hs4 hi4 hio4 hd
        rw [wp_pure]
        exact hQ cost sol s4 (h03.trans hs4) hi4 hio4 hd
    · intro core s2 hs2 _ hio2 hcsub himp
      have hi2 := hi1.same hs2
      rw [if_pos rfl, wp_bind]
      refine wp_logEvent _ hio2 ?_ (fun e s' h he => hstop e s' ((hs1.trans hs2).trans h) he)
      intro s3 hs3 _ hio3
      rw [wp_pure]
      refine hnone s3 rfl ((hs1.trans hs2).trans hs3).eiStep (hi2.same hs3) hio3 ?_
      intro t ht hA hRt
      obtain ⟨m, hm1, hm2⟩ := hi1.ext t ht hA
      have h1 := himp m hm2.db
      rw [core_false hcsub (hbl.exact m hm2 ((hR t m hm1).1 hRt))] at h1
      simp at h1

/-! ## BiOptSat -/

theorem FrontOK.point {front : ParetoFront Assignment} {cs : List (List Nat)} (h : FrontOK pb front cs) {c : List Nat}
    (hc : c ∈ cs) : ∃ p ∈ front, PointOK pb p c := by
  have := h.points
  clear h
  induction this with
  | nil => cases hc
  | cons h1 _ ih =>
    rcases List.mem_cons.1 hc with rfl | hc
    · exact ⟨_, List.mem_cons_self, h1⟩
    · obtain ⟨p, h2, h3⟩ := ih hc
      exact ⟨p, List.mem_cons_of_mem _ h2, h3⟩

/-- The cost vectors are in the order of decreasing second cost, and the ones that are not dominated and missing come later. -/
structure BosOrder (pb : Pb) (cs : List (List Nat)) : Prop where
  dec : cs.Pairwise fun c d => d.getD 1 0 < c.getD 1 0
  gap : ∀ t, pb.NonDom t → pb.costs t ∈ cs ∨ ∀ c ∈ cs, (pb.costs t).getD 1 0 < c.getD 1 0

theorem BosOrder.nil : BosOrder pb [] := ⟨List.Pairwise.nil, fun _ _ => .inr fun _ h => by cases h⟩

/-- How BiOptSat may stop early. -/
structure BosStop (pb : Pb) (env : Env) (fuel : Nat) (s : Slv P C) (e : Stop) (s' : Slv P C) : Prop where
  base : IoBase pb.objs.length s'.io
  panic : e ≠ .panic
  error : e = .error → LogFail env
  fuel : e = .fuel → fuel ≤ pb.bound
  opts : s'.k.opts = s.k.opts
  front : ∃ cs', FrontOK pb s'.front cs' ∧ BosOrder pb cs'

/-- State after BiOptSat. -/
structure BosDone (pb : Pb) (env : Env) (s s' : Slv P C) : Prop where
  io : IoInv env pb.objs.length s'.io
  opts : s'.k.opts = s.k.opts
  bcg : s'.k.bcg = s.k.bcg
  objs : s'.k.objs = s.k.objs
  front : ∃ cs', FrontOK pb s'.front cs' ∧ List.Forall₂ (EnumFull pb s'.k.opts.enumeration (blkOf s'.k)) s'.front cs' ∧
    (∀ t, pb.NonDom t → pb.costs t ∈ cs') ∧ BosOrder pb cs'

/-- Worse values of the second objective are blocked first. -/
def Closed (pb : Pb) (A : Asg → Prop) (o1 : Objective) : Prop :=
  ∀ t t', pb.Sol t → A t → pb.Sol t' → icost o1 t' ≤ icost o1 t → A t'

theorem enforceUb_base {ei j b : Nat} {A : Asg → Prop} {e : ObjEnc P C} {o : Objective} {ls : List Lit}
    (hi : DBInv pb A s) (hz : ConstZero pb s) (hj : ei ≠ j) (he : s.encs[j]? = some e) (ho : pb.objs[j]? = some o)
    (hr : e.Ready b) (hls : e.enforceUb b = some ls) :
    (∀ m, cnfEval m s.k.db = true → cubeEval m ls = true → icost o m ≤ b) ∧
      StableBase pb ei s (fun t => icost o t ≤ b) ls := by
  obtain ⟨ls', h1, h2, h3, h4, -, -⟩ := ObjEnc.enforceUb_spec e b s.k.vm.nextVar hr (hi.below j e he)
  rw [hls, Option.some.injEq] at h1
  subst h1
  have hs : ∀ m, cnfEval m s.k.db = true → cubeEval m ls = true → icost o m ≤ b := by
    intro m hm hc
    by_cases hcon : e.isConstant = true
    · rw [hz j e o he ho hcon m (hi.sound m hm).1]; omega
    · exact h3 o m (by simpa using hcon) (hi.encSound m hm j e o he ho) hc
  refine ⟨hs, ?_⟩
  intro s' hs'
  refine ⟨h2.mono hs'.step.next, fun m hm => hs m (hs'.step.dbEval hm), ?_⟩
  intro m hm hc
  refine h4 o m (hm.exact j e o ?_ ?_) hc
  · rw [hs'.others j hj]; exact he
  · rw [hs'.objs, hi.objs]; exact ho

/-- The state after adding clauses. -/
theorem DBInv.addUnits {s s' : Slv P C} {B : Asg → Prop} {ls : List Lit} (hi : DBInv pb A s)
    (hk : s'.k = { s.k with db := s.k.db ++ cubeImplCube [] ls, ostate := s'.k.ostate }) (he : s'.encs = s.encs)
    (hc : LitsBelow s.k.vm.nextVar ls)
    (hs : ∀ m, cnfEval m s.k.db = true → cubeEval m ls = true → B m)
    (hx : ∀ m, XModel s m → B m → cubeEval m ls = true) (hB : Local pb B) :
    DBInv pb (fun t => A t ∧ B t) s' := by
  have hcube : ∀ m, cnfEval m (cubeImplCube [] ls) = cubeEval m ls := by
    intro m
    simp [cnfEval, cubeImplCube, cubeEval, List.all_map, Function.comp_def, clauseEval]
  have hdb : s'.k.db = s.k.db ++ cubeImplCube [] ls := by rw [hk]
  exact {
    objs := by rw [hk]; exact hi.objs
    len := by rw [he]; exact hi.len
    next := by rw [hk]; exact hi.next
    origVar := by rw [hk]; exact hi.origVar
    encVar := by rw [hk]; exact hi.encVar
    dbVars := by
      rw [hk]
      refine hi.dbVars.append ?_
      intro c hcm l hl
      simp only [cubeImplCube, List.map_nil, List.nil_append, List.mem_map] at hcm
      obtain ⟨a, ha, rfl⟩ := hcm
      simp only [List.mem_singleton] at hl
      subst hl
      exact hc _ ha
    below := by rw [he, hk]; exact hi.below
    encFor := by rw [he]; exact hi.encFor
    sound := by
      intro m hm
      rw [hdb, cnfEval_append, hcube] at hm
      exact ⟨(hi.sound m hm.1).1, (hi.sound m hm.1).2, hs m hm.1 hm.2⟩
    encSound := by
      intro m hm
      rw [hdb, cnfEval_append] at hm
      rw [he]
      exact hi.encSound m hm.1
    ext := by
      rintro t h1 ⟨h2, h3⟩
      obtain ⟨m, g1, g2⟩ := hi.ext t h1 h2
      refine ⟨m, g1, ?_, ?_⟩
      · rw [hdb, cnfEval_append, hcube]
        exact ⟨g2.db, hx m g2 ((hB t m g1).1 h3)⟩
      · rw [he, hk]; exact g2.exact
    unlimited := by rw [hk]; exact hi.unlimited }

theorem LinsuStop.bos {fuel e cs} {s s1 s' : Slv P C} (h : LinsuStop pb env A fuel s1 e s') (ho : s1.k.opts = s.k.opts)
    (hf : FrontOK pb s1.front cs) (hd : BosOrder pb cs) : BosStop pb env fuel s e s' := by
  refine ⟨h.base, h.panic, h.error, fun he => ?_, by rw [h.grow.frame.opts]; exact ho, cs, by rw [h.grow.frame.front]; exact hf,
    hd⟩
  have := h.fuel he
  unfold Pb.bound
  generalize 2 ^ pb.nOrig = x
  omega

theorem IoStopQ.bos {fuel e cs} {s s' : Slv P C} (h : IoStopQ env pb.objs.length e s') (ho : s'.k.opts = s.k.opts)
    (hf : FrontOK pb s'.front cs) (hd : BosOrder pb cs) : BosStop pb env fuel s e s' := by
  have h3 := h.1.2
  refine ⟨h.1.1, ?_, ?_, ?_, ho, cs, hf, hd⟩
  · rintro rfl; exact h3
  · rintro rfl; exact h3
  · rintro rfl; exact h3.elim

/-- Invariant of the loop of BiOptSat. -/
structure BosInv (pb : Pb) (env : Env) (o0 o1 : Objective) (s : Slv P C) (st : BosState) (s' : Slv P C) : Prop where
  io : IoInv env pb.objs.length s'.io
  opts : s'.k.opts = s.k.opts
  bcg : s'.k.bcg = s.k.bcg
  enc : EncStep s s'
  core : ∃ A' cs', Core pb A' cs' s' ∧ Closed pb A' o1 ∧ Cover pb A' cs' ∧
    (∃ t n1, Found pb A' (fun _ => True) o0 st.2.1 st.2.2 t n1) ∧ (∀ t, pb.Sol t → A' t → st.1 ≤ icost o0 t) ∧ BosOrder pb cs'
  lb : ∀ e, s'.encs[0]? = some e → e.offset ≤ st.1

theorem wp_bosLoop {Q : Unit → Slv P C → Prop} {o0 o1 : Objective} (wf : pb.WF) (orc : OracleOK env)
    (tok : TightOK env pb) (hfit : pb.Fits)
    (hobjs : pb.objs = [o0, o1]) (hz : ConstZero pb s) (decLb : Nat) (hdec : ∀ t, pb.Sol t → decLb ≤ icost o1 t)
    (hdec' : ∀ e, s.encs[1]? = some e → e.offset ≤ decLb)
    (hblk : s.k.opts.enumeration ≠ .noEnum → BlockOK pb (blkOf s.k))
    (hpb : pb.en = s.k.opts.enumeration ∧ pb.blk = blkOf s.k) (hso : s.k.objs = pb.objs) (fuel : Nat) (st : BosState)
    {s0 : Slv P C} (hst : BosInv pb env o0 o1 s st s0)
    (hQ : ∀ s', BosDone pb env s s' → Q () s') (hE : ∀ e s', BosStop pb env fuel s e s' → E e s') :
    wp env (loopM (bosBody fuel 0 1 [] decLb (fun _ => none)) fuel st) Q E s0 := by
  have ho0 : pb.objs[0]? = some o0 := by rw [hobjs]; rfl
  have ho1 : pb.objs[1]? = some o1 := by rw [hobjs]; rfl
  have hcosts : ∀ t, pb.costs t = [icost o0 t, icost o1 t] := by intro t; simp [Pb.costs, hobjs]
  have hvle : ∀ t t', VLe (pb.costs t) (pb.costs t') ↔ icost o0 t ≤ icost o0 t' ∧ icost o1 t ≤ icost o1 t' := by
    intro t t'
    rw [hcosts, hcosts]
    constructor
    · intro h
      cases h with
      | cons h1 h2 => cases h2 with | cons h2 _ => exact ⟨h1, h2⟩
    · rintro ⟨h1, h2⟩
      exact .cons h1 (.cons h2 .nil)
  have hloc : ∀ (o : Objective) (b : Nat), o ∈ pb.objs → Local pb (fun t => icost o t ≤ b) := by
    intro o b ho t m hm
    simp only
    rw [Pb.icost_agree wf hm ho]
  refine wp_loop (BosInv pb env o0 o1 s) (fun _ s' => pb.boxSize - s'.front.length) pb.boxSize fuel _ _
    (fun _ s' _ => Nat.sub_le _ _) ?_ ?_ hst
  · rintro st s1 hst
    have hio1 := hst.io
    have hop1 := hst.opts
    have hbc1 := hst.bcg
    obtain ⟨A1, cs1, hcore1, hcl1, hcov1, ⟨t0, n0, hf0⟩, hlow1, hord1⟩ := hst.core
    have hi1 := hcore1.inv
    have hz1 := hz.encStep hst.enc
    unfold bosBody
    rw [wp_bind]
    -- first linear search
    refine wp_linsu (R := fun _ => True) wf orc tok hio1 hi1 hz1 (fun _ _ _ => Iff.rfl) ho0 ho0 ?_ (some st.1) hst.lb
      (some (st.2.1, some st.2.2)) ?_ (by simp) fuel ?_ ?_ (fun e s' h => hE e s' (h.bos hop1 hcore1.front hord1))
    · exact fun s' _ => ⟨LitsBelow.nil _, fun _ _ _ => trivial, fun _ _ _ => rfl⟩
    · intro st' hst'
      rw [Option.some.injEq] at hst'
      subst hst'
      exact ⟨t0, n0, hf0⟩
    swap
    · intro s' h; simp at h
    intro incCost sol s2 hs2 hi2 hio2 hd2
    simp only
    obtain ⟨t2, n2, c2, hf2, -, hc2⟩ := hd2.found
    have hc2 := hc2 (by intro b; simp)
    subst hc2
    have hmin0 : ∀ t, pb.Sol t → A1 t → c2 ≤ icost o0 t := by
      intro t ht hA
      rcases hd2.minimal with h | h
      · exact Nat.le_trans h (hlow1 t ht hA)
      · exact h t ht hA trivial
    have hz2 := hz1.encStep hs2.step.enc
    have hop2 : s2.k.opts = s.k.opts := by rw [hs2.step.frame.opts]; exact hop1
    rw [hf2.eq, wp_bind]
    refine wp_getCost wf hi2 ho1 hf2.vars t2 ?_
    rw [wp_bind, wp_bind]
    -- bound on the first objective
    obtain ⟨e0, he0⟩ := hi2.enc_exists ho0
    have hoff0 := (hi2.encFor 0 e0 o0 he0 ho0).offset t2 hf2.sol
    rw [hf2.cost] at hoff0
    refine wp_extendEncoding' wf hi2 0 c2 (c2 + 1) he0 ?_
    intro s3 e3 hs3 hoth3 hi3 hio3 he3 hoff3 hcon3 _ _ hready3
    have hz3 := hz2.encStep hs3.enc
    rw [wp_bind]
    refine wp_encAt he3 ?_
    have hr3 := hready3 c2 hoff0 (Nat.le_refl _) (Nat.lt_succ_self _)
    obtain ⟨ls0, hls0, -⟩ := ObjEnc.enforceUb_spec e3 c2 s3.k.vm.nextVar hr3 (hi3.below 0 e3 he3)
    rw [wp_bind, hls0, wp_unwrap_some, List.nil_append, wp_bind]
    obtain ⟨-, hbase⟩ := enforceUb_base (ei := 1) hi3 hz3 (by omega) he3 ho0 hr3 hls0
    have hop3 : s3.k.opts = s.k.opts := by rw [hs3.frame.opts]; exact hop2
    have hfr3 : s3.front = s1.front := by rw [hs3.frame.front, hs2.step.frame.front]
    have hgr13 : Grow s1 s3 := hs2.step.toGrow.trans hs3.toGrow
    have hdec3 : ∀ {s' : Slv P C}, EncStep s1 s' → ∀ e, s'.encs[1]? = some e → e.offset ≤ decLb := by
      intro s' hs' e he
      have hen := hst.enc.trans hs'
      have hlt : 1 < s.encs.length := by
        rw [← hen.len]; exact (List.getElem?_eq_some_iff.1 he).1
      obtain ⟨e', h1, h2, -, -, -⟩ := hen.enc 1 _ (List.getElem?_eq_getElem hlt)
      rw [he, Option.some.injEq] at h1
      subst h1
      rw [h2]
      exact hdec' _ (List.getElem?_eq_getElem hlt)
    -- second linear search
    unfold linsuYield
    rw [wp_bind]
    refine wp_linsu wf orc tok (by rw [hio3]; exact hio2) hi3 hz3 (hloc o0 c2 (List.mem_of_getElem? ho0)) ho1 ho1
      hbase (some decLb) (hdec3 hgr13.enc) (some (icost o1 t2, some (Assignment.ofModel t2 n2))) ?_ (by simp) fuel ?_ ?_
      (fun e s' h => hE e s' (h.bos hop3 (by rw [hfr3]; exact hcore1.front) hord1))
    · intro st' hst'
      rw [Option.some.injEq] at hst'
      subst hst'
      exact ⟨t2, n2, rfl, hf2.vars, hf2.sol, hf2.allowed, Nat.le_of_eq hf2.cost, rfl⟩
    swap
    · intro s' h; simp at h
    intro decCost sol4 s4 hs4 hi4 hio4 hd4
    simp only
    obtain ⟨t4, n4, c4, hf4, -, hc4⟩ := hd4.found
    have hc4 := hc4 (by intro b; simp)
    subst hc4
    have hmin1 : ∀ t, pb.Sol t → A1 t → icost o0 t ≤ c2 → c4 ≤ icost o1 t := by
      intro t ht hA hle
      rcases hd4.minimal with h | h
      · exact Nat.le_trans h (hdec t ht)
      · exact h t ht hA hle
    have h40 : icost o0 t4 = c2 := Nat.le_antisymm hf4.base (hmin0 t4 hf4.sol hf4.allowed)
    have h41 : icost o1 t4 = c4 := hf4.cost
    have hnd : pb.NonDom t4 := by
      refine ⟨hf4.sol, fun t' ht' hle => ?_⟩
      rw [hvle] at hle
      have hA' := hcl1 t4 t' hf4.sol hf4.allowed ht' hle.2
      have h1 := hmin0 t' ht' hA'
      have h2 := hmin1 t' ht' hA' (by omega)
      rw [hcosts, hcosts]
      have : icost o0 t' = icost o0 t4 := by omega
      have : icost o1 t' = icost o1 t4 := by omega
      simp [*]
    have hop4 : s4.k.opts = s.k.opts := by rw [hs4.step.frame.opts]; exact hop3
    have hz4 := hz3.encStep hs4.step.enc
    have hbase4 := hbase.step hs4
    rw [wp_bind, wp_getS, wp_bind, hf4.eq, costsOf_ofModel hi4 wf hf4.vars]
    refine wp_dbg (by rw [hcosts]; simp [h41]) ?_
    rw [wp_bind]
    obtain ⟨e4, he4⟩ := hi4.enc_exists ho1
    have hoff4 := (hi4.encFor 1 e4 o1 he4 ho1).offset t4 hf4.sol
    rw [h41] at hoff4
    refine wp_extendEncoding' wf hi4 1 c4 (c4 + 1) he4 ?_
    intro s5 e5 hs5 hoth5 hi5 hio5 he5 hoff5 hcon5 _ _ hready5
    have hz5 := hz4.encStep hs5.enc
    rw [wp_bind]
    refine wp_encAt he5 ?_
    have hr5 := hready5 c4 hoff4 (Nat.le_refl _) (Nat.lt_succ_self _)
    obtain ⟨ls1, hls1, hlb1, -⟩ := ObjEnc.enforceUb_spec e5 c4 s5.k.vm.nextVar hr5 (hi5.below 1 e5 he5)
    rw [wp_bind, hls1, wp_unwrap_some, wp_bind]
    obtain ⟨hsnd1, hbase1⟩ := enforceUb_base (ei := 0) hi5 hz5 (by omega) he5 ho1 hr5 hls1
    have hb5 : BaseLits pb s5 (fun t => icost o0 t ≤ c2) ls0 := hbase4 s5 ⟨hs5, hoth5, by rw [hi5.objs, hi4.objs]⟩
    have hb5' := hbase1 s5 (EiStep.refl 0 s5)
    have hdom : DomLits pb s5 (pb.costs t4) (ls0 ++ ls1) := by
      refine ⟨hb5.below.append hlb1, ?_, ?_⟩
      · intro m hm hc
        rw [cubeEval_append] at hc
        have h1 := hb5.sound m hm hc.1
        have h2 := hsnd1 m hm hc.2
        rw [hvle]
        omega
      · intro m hm hv
        rw [hvle] at hv
        rw [cubeEval_append]
        exact ⟨hb5.exact m hm (by omega), hb5'.exact m hm (by omega)⟩
    have hgr15 : Grow s1 s5 := (hgr13.trans hs4.step.toGrow).trans hs5.toGrow
    have hop5 : s5.k.opts = s.k.opts := by rw [hs5.frame.opts]; exact hop4
    have hb51 : blkOf s5.k = blkOf s1.k := by
      unfold blkOf
      rw [hgr15.frame.opts, hgr15.frame.bcg, hi5.objs, ← hi1.objs]
    have hb5s : blkOf s5.k = blkOf s.k := by
      unfold blkOf
      rw [hop5, hgr15.frame.bcg, hbc1, hi5.objs, ← hso]
    have hcnew : pb.costs t4 ∉ cs1 := fun h => hcore1.abs.notdom t4 hf4.sol hf4.allowed _ h (VLe.refl _)
    have hlater : ∀ t, pb.Sol t → A1 t → ∀ c ∈ cs1, (pb.costs t).getD 1 0 < c.getD 1 0 := by
      intro t ht hA c hc
      obtain ⟨p, -, hp⟩ := hcore1.front.point hc
      obtain ⟨tc, htc, hcc, -⟩ := hp.costs
      by_contra hcon
      rw [← hcc, hcosts, hcosts] at hcon
      simp only [List.getD_cons_succ, List.getD_cons_zero] at hcon
      exact hcore1.abs.notdom tc htc.1 (hcl1 t tc ht hA htc.1 (by omega)) c hc (by rw [hcc]; exact VLe.refl _)
    have hord4 : BosOrder pb (cs1 ++ [pb.costs t4]) := by
      refine ⟨List.pairwise_append.2 ⟨hord1.dec, List.pairwise_singleton _ _, fun c hc d hd => ?_⟩, fun t ht => ?_⟩
      · rw [List.mem_singleton] at hd
        subst hd
        exact hlater t4 hf4.sol hf4.allowed c hc
      · rcases hcov1 t ht with hA | hmem
        · by_cases hlt : icost o1 t < icost o1 t4
          · refine .inr fun c hc => ?_
            rcases List.mem_append.1 hc with hc | hc
            · exact hlater t ht.1 hA c hc
            · rw [List.mem_singleton] at hc
              subst hc
              rw [hcosts, hcosts]
              simpa using hlt
          · refine .inl (List.mem_append_right _ ?_)
            have h0 := hmin0 t ht.1 hA
            rw [ht.2 t4 hf4.sol ((hvle t4 t).2 ⟨by omega, by omega⟩)]
            exact List.mem_singleton_self _
        · exact .inl (List.mem_append_left _ hmem)
    -- reporting
    refine wp_yieldSolutions (g := none) (B := fun _ => True) wf orc hfit (by rw [hio5]; exact hio4) hi5 (fun _ => trivial) t4
      hnd n4 hf4.vars (ls0 ++ ls1) (fun _ => hdom) fuel ?_
      ⟨by rw [hop5]; exact hpb.1, by rw [hb5s]; exact hpb.2⟩ ?_ ?_
    · intro hen
      refine ⟨by rw [hb5s]; exact hblk (by rw [← hop5]; exact hen), fun t' ht' hc => ?_⟩
      have := congrArg (·[1]?) hc
      simp only [hcosts, List.getElem?_cons_succ, List.getElem?_cons_zero, Option.some.injEq] at this
      exact hcl1 t4 t' hf4.sol hf4.allowed ht' (by omega)
    · intro s6 hy
      obtain ⟨A6, hA61, hA16, hi6, -⟩ := hy.inv
      obtain ⟨p, hp1, hp2, hp3⟩ := hy.front
      have hfr6 : s6.front = s1.front ++ [p] := by rw [hp1, hgr15.frame.front]
      have hop6 : s6.k.opts = s.k.opts := by rw [hy.opts]; exact hop5
      have hbc6 : s6.k.bcg = s.k.bcg := by rw [hy.bcg, hgr15.frame.bcg, hbc1]
      have hen6 : EncStep s1 s6 := hgr15.enc.trans hy.enc
      have hblk6 : blkOf s6.k = blkOf s1.k := by
        rw [← hb51]
        unfold blkOf
        rw [hy.opts, hy.bcg, hi6.objs, ← hi5.objs]
      have hfront6 : FrontOK pb s6.front (cs1 ++ [pb.costs t4]) := by
        rw [hfr6]; exact hcore1.front.snoc hp2 hcnew
      have hfull6 : List.Forall₂ (EnumFull pb s6.k.opts.enumeration (blkOf s6.k)) s6.front (cs1 ++ [pb.costs t4]) := by
        rw [hblk6, hfr6, hop6, ← hop1]
        refine Forall₂_snoc hcore1.full ?_
        rw [← hb51, hop1, ← hop5]
        exact hp3
      have hcov6 : ∀ t, pb.NonDom t → (A1 t ∧ icost o1 t < c4) ∨ pb.costs t ∈ cs1 ++ [pb.costs t4] := by
        intro t ht
        rcases hcov1 t ht with h | h
        · by_cases hlt : icost o1 t < c4
          · exact .inl ⟨h, hlt⟩
          · right
            have h0 := hmin0 t ht.1 h
            have := ht.2 t4 hf4.sol ((hvle _ _).2 ⟨by omega, by omega⟩)
            simp [this]
        · exact .inr (by simp [h])
      rw [wp_pure, wp_bind, wp_unwrap_some, wp_pure]
      simp only
      have hz6 := hz1.encStep hen6
      split
      · next hle =>
        rw [wp_bind]
        refine wp_logEvent _ hy.io ?_ (fun e s' h he => hE e s' (he.bos (by rw [h.opts]; exact hop6)
          (by rw [h.front]; exact hfront6) hord4))
        intro s7 hs7 hk7 hio7
        rw [wp_pure]
        refine hQ s7 ⟨hio7, by rw [hk7]; exact hop6, by rw [hk7]; exact hbc6, by rw [hk7, hi6.objs, hso],
          cs1 ++ [pb.costs t4],
          by rw [hs7.front]; exact hfront6, by rw [hk7, hs7.front]; exact hfull6, ?_, hord4⟩
        intro t ht
        rcases hcov6 t ht with h | h
        · have := hdec t ht.1
          omega
        · exact h
      · next hle =>
        -- next point
        unfold bosNext
        obtain ⟨e6, he6⟩ := hi6.enc_exists ho1
        have hoff6 := hdec3 hen6 e6 he6
        rw [wp_bind]
        refine wp_extendEncoding' wf hi6 1 (c4 - 1) c4 he6 ?_
        intro s7 e7 hs7 hoth7 hi7 hio7 he7 hoff7 hcon7 _ _ hready7
        have hz7 := hz6.encStep hs7.enc
        rw [wp_bind]
        refine wp_encAt he7 ?_
        have hr7 := hready7 (c4 - 1) (by omega) (by omega) (by omega)
        obtain ⟨ls7, hls7, hlb7, -⟩ := ObjEnc.enforceUb_spec e7 (c4 - 1) s7.k.vm.nextVar hr7 (hi7.below 1 e7 he7)
        rw [wp_bind, hls7, wp_orErr_some, wp_bind]
        obtain ⟨hsnd7, hbase7⟩ := enforceUb_base (ei := 0) hi7 hz7 (by omega) he7 ho1 hr7 hls7
        refine wp_addClauses _ fun s8 hk8 henc8 hfr8 hfe8 hio8 => ?_
        have hi8 := hi7.addUnits hk8 henc8 hlb7 hsnd7 (hbase7 s7 (EiStep.refl 0 s7)).exact
          (hloc o1 (c4 - 1) (List.mem_of_getElem? ho1))
        have hA8 : ∀ t, pb.Sol t → ((A6 t ∧ icost o1 t ≤ c4 - 1) ↔ A1 t ∧ icost o1 t ≤ c4 - 1) := by
          intro t ht
          constructor
          · rintro ⟨h1, h2⟩; exact ⟨hA61 t h1, h2⟩
          · rintro ⟨h1, h2⟩
            refine ⟨hA16 t ht h1 ?_, h2⟩
            rw [hvle]
            omega
        have hi8 := hi8.congr hA8
        have hfr81 : s8.front = s1.front ++ [p] := by rw [hfr8, hs7.frame.front, hfr6]
        have hop8 : s8.k.opts = s.k.opts := by rw [hk8]; exact hs7.frame.opts.trans hop6
        have hbc8 : s8.k.bcg = s.k.bcg := by rw [hk8]; exact hs7.frame.bcg.trans hbc6
        have hen8 : EncStep s1 s8 := by
          exact (hen6.trans hs7.enc).trans (.of_encs henc8)
        have hblk8 : blkOf s8.k = blkOf s6.k := by
          unfold blkOf
          rw [hop8, hbc8, hi8.objs, ← hi6.objs, hop6, hbc6]
        have hshr : Abs pb (fun t => A1 t ∧ icost o1 t ≤ c4 - 1) (cs1 ++ [pb.costs t4]) := by
          refine ⟨?_, ?_⟩
          · intro t ht hn t' ht' hle' hA'
            rw [hvle] at hle'
            exact hn ⟨hcl1 t' t ht' hA'.1 ht.1 hle'.2, by omega⟩
          · rintro t ht ⟨hA, hlt⟩ c hc
            simp only [List.mem_append, List.mem_singleton] at hc
            rcases hc with hc | rfl
            · exact hcore1.abs.notdom t ht hA c hc
            · rw [hvle]; omega
        have hcore8 : Core pb (fun t => A1 t ∧ icost o1 t ≤ c4 - 1) (cs1 ++ [pb.costs t4]) s8 := by
          refine ⟨hi8, hshr, by rw [hfr81, ← hfr6]; exact hfront6, ?_⟩
          rw [hblk8, hop8, hfr81, ← hfr6, ← hop6]
          exact hfull6
        rw [wp_bind]
        refine wp_solveAssumps orc [] hi8.unlimited (by rw [hio8, hio7]; exact hy.io) ?_ ?_
          (fun e s' h he => hE e s' (he.bos (by rw [h.opts]; exact hop8) (by rw [h.front]; exact hcore8.front) hord4))
        · intro m s9 hs9 hos9 hio9 hmdb _
          have hi9 := hi8.same hs9
          simp only
          rw [wp_bind]
          refine wp_oracleSolution hos9 (by have := hi9.next; have := hi9.encVar; omega) ?_
          rw [wp_bind]
          refine wp_getCostTight wf orc tok hio9 hi9 ho0 hi9.next hos9 (by rw [hs9.db]; exact hmdb) true ?_
            (fun e s' h he => hE e s' (he.bos (by rw [h.opts, hs9.opts]; exact hop8)
              (by rw [h.front, hs9.front]; exact hcore8.front) hord4))
          intro m' sg hg hosg hiog hmdb' _ _
          have hsg := hs9.trans hg
          have hig := hi8.same hsg
          rw [wp_pure]
          have hms := hig.sound m' hmdb'
          refine ⟨⟨hiog, by rw [hsg.opts]; exact hop8, by rw [hsg.bcg]; exact hbc8,
            (hst.enc.trans hen8).trans hsg.step.enc, ⟨_, _, hcore8.grow hsg.step.toGrow hshr hig, ?_, ?_, ?_, ?_, hord4⟩, ?_⟩, ?_⟩
          · rintro t t' ht ⟨hA, hlt⟩ ht' hle'
            exact ⟨hcl1 t t' ht hA ht' hle', by omega⟩
          · intro t ht
            rcases hcov6 t ht with h | h
            · exact .inl ⟨h.1, by omega⟩
            · exact .inr h
          · exact ⟨m', _, rfl, hi9.next, hms.1, hms.2, trivial, rfl⟩
          · rintro t ht ⟨hA, hlt⟩
            show c2 + 1 ≤ icost o0 t
            by_contra hcon
            have := hmin1 t ht hA (by omega)
            omega
          · intro e he
            show e.offset ≤ c2 + 1
            rw [hsg.encs] at he
            obtain ⟨e1, he1⟩ := hi1.enc_exists ho0
            obtain ⟨e', h1, h2, -, -, -⟩ := hen8.enc 0 e1 he1
            rw [he, Option.some.injEq] at h1
            subst h1
            have := (hi1.encFor 0 e1 o0 he1 ho0).offset t2 hf2.sol
            rw [hf2.cost] at this
            omega
          · have hlen := (hcore8.grow hsg.step.toGrow hshr hig).front.length
            have : sg.front = s1.front ++ [p] := by rw [hsg.front]; exact hfr81
            show pb.boxSize - sg.front.length < pb.boxSize - s1.front.length
            rw [this] at hlen ⊢
            simp only [List.length_append, List.length_singleton] at hlen ⊢
            omega
        · intro core s9 hs9 _ hio9 hcsub himp
          simp only
          have hi9 := hi8.same hs9
          rw [wp_bind]
          have hcore9 := hcore8.grow hs9.step.toGrow hshr hi9
          refine wp_logEvent _ hio9 ?_ (fun e s' h he => hE e s' (he.bos (by rw [h.opts, hs9.opts]; exact hop8)
            (by rw [h.front]; exact hcore9.front) hord4))
          intro s10 hs10 hk10 hio10
          have hcore10 := hcore9.grow hs10.step.toGrow hshr (hi9.same hs10)
          rw [wp_pure]
          refine hQ s10 ⟨hio10, by rw [hs10.opts, hs9.opts]; exact hop8, by rw [hs10.bcg, hs9.bcg]; exact hbc8,
            by rw [hs10.objs, hs9.objs, hi8.objs, hso],
            cs1 ++ [pb.costs t4], hcore10.front, hcore10.full, ?_, hord4⟩
          intro t ht
          rcases hcov6 t ht with h | h
          · exfalso
            obtain ⟨m, -, hm⟩ := hi8.ext t ht.1 ⟨h.1, by omega⟩
            have h1 := himp m hm.db
            rw [core_false hcsub rfl] at h1
            simp at h1
          · exact h
    · intro e s6 hy
      refine hE e s6 ⟨hy.base, hy.panic, hy.error, fun h => ?_, by rw [hy.opts]; exact hop5, ?_⟩
      · have := hy.fuel h
        unfold Pb.bound
        omega
      · rcases hy.front with h | ⟨p, h, hp⟩
        · exact ⟨cs1, by rw [h, hgr15.frame.front]; exact hcore1.front, hord1⟩
        · exact ⟨cs1 ++ [pb.costs t4], by rw [h, hgr15.frame.front]; exact hcore1.front.snoc hp hcnew, hord4⟩
  · rintro st s1 hst hf
    obtain ⟨A1, cs1, hcore1, -, -, -, -, hord1⟩ := hst.core
    refine hE _ s1 ⟨hst.io.base, by simp, by simp, fun _ => ?_, hst.opts, cs1, hcore1.front, hord1⟩
    unfold Pb.bound
    generalize 2 ^ pb.nOrig = x
    omega

theorem wp_bosMain {Q : Unit → Slv P C → Prop} {o0 o1 : Objective} {cs : List (List Nat)} (wf : pb.WF) (orc : OracleOK env)
    (tok : TightOK env pb) (hfit : pb.Fits) (hobjs : pb.objs = [o0, o1]) (hio : IoInv env pb.objs.length s.io) (hcore : Core pb A cs s)
    (hcl : Closed pb A o1) (hcov : Cover pb A cs) (hord : BosOrder pb cs) (hz : ConstZero pb s)
    (hblk : s.k.opts.enumeration ≠ .noEnum → BlockOK pb (blkOf s.k))
    (hpb : pb.en = s.k.opts.enumeration ∧ pb.blk = blkOf s.k) (fuel : Nat)
    (hQ : ∀ s', BosDone pb env s s' → Q () s') (hE : ∀ e s', BosStop pb env fuel s e s' → E e s') :
    wp env (bosMain fuel) Q E s := by
  have ho0 : pb.objs[0]? = some o0 := by rw [hobjs]; rfl
  have ho1 : pb.objs[1]? = some o1 := by rw [hobjs]; rfl
  have hi := hcore.inv
  unfold bosMain bioptsat
  have hstop : ∀ e s', Same s s' → IoStopQ env pb.objs.length e s' → E e s' := fun e s' h he =>
    hE e s' (he.bos h.opts (by rw [h.front]; exact hcore.front) hord)
  rw [wp_bind]
  refine wp_logEvent _ hio ?_ hstop
  intro s1 hs1 hk1 hio1
  have hi1 := hi.same hs1
  obtain ⟨e0, he0⟩ := hi1.enc_exists ho0
  obtain ⟨e1, he1⟩ := hi1.enc_exists ho1
  rw [wp_bind, wp_getS, wp_bind]
  refine wp_dbg (by rw [hi1.len, hobjs]; rfl) ?_
  rw [wp_bind]
  refine wp_encAt he0 ?_
  rw [wp_bind]
  refine wp_encAt he1 ?_
  simp only [Option.getD_none]
  rw [wp_bind]
  refine wp_solveAssumps orc [] hi1.unlimited hio1 ?_ ?_ (fun e s' h he => hstop e s' (hs1.trans h) he)
  · intro m s2 hs2 hos2 hio2 hmdb _
    have hi2 := hi.same (hs1.trans hs2)
    rw [if_neg (by simp), wp_bind]
    refine wp_oracleSolution hos2 (by have := hi2.next; have := hi2.encVar; omega) ?_
    rw [wp_bind]
    refine wp_getCostTight wf orc tok hio2 hi2 ho0 hi2.next hos2 (by rw [hs2.db]; exact hmdb) true ?_
      (fun e s' h he => hstop e s' ((hs1.trans hs2).trans h) he)
    intro m' sg hg hosg hiog hmdb' _ _
    have h02 := (hs1.trans hs2).trans hg
    have hig := hi.same h02
    have hms := hig.sound m' hmdb'
    refine wp_bosLoop wf orc tok hfit hobjs hz e1.offset (hi1.encFor 1 e1 o1 he1 ho1).offset ?_ hblk hpb hi.objs fuel _ ?_ hQ hE
    · intro e he
      rw [← hs1.encs, he1, Option.some.injEq] at he
      rw [he]
    · refine ⟨hiog, h02.opts, h02.bcg, h02.step.enc, ⟨A, cs, hcore.grow h02.step.toGrow hcore.abs hig, hcl, hcov,
        ⟨m', _, rfl, hi2.next, hms.1, hms.2, trivial, rfl⟩, ?_, hord⟩, ?_⟩
      · intro t ht _
        exact (hi1.encFor 0 e0 o0 he0 ho0).offset t ht
      · intro e he
        rw [hg.encs, hs2.encs, he0, Option.some.injEq] at he
        rw [he]
  · intro core s2 hs2 _ hio2 hcsub himp
    have h02 := hs1.trans hs2
    rw [if_pos rfl, wp_pure]
    have hcore2 := hcore.grow h02.step.toGrow hcore.abs (hi.same h02)
    refine hQ s2 ⟨hio2, h02.opts, h02.bcg, by rw [hcore2.inv.objs, hi.objs], cs, hcore2.front, hcore2.full, ?_, hord⟩
    intro t ht
    rcases hcov t ht with h | h
    · obtain ⟨m, -, hm⟩ := hi1.ext t ht.1 h
      have h1 := himp m hm.db
      rw [core_false hcsub rfl] at h1
      simp at h1
    · exact h

end Scuttle
