import Verif.Proof.Yield
import Verif.Proof.Tighten

/-!
# Rule for `p_minimization`
-/

set_option linter.unusedSectionVars false

namespace Scuttle

open Spec

variable {P C : Type} [UbEnc P] [UbEnc C] [LawfulUbEnc P] [LawfulUbEnc C]
variable {env : Env} {E : Stop → Slv P C → Prop} {s : Slv P C} {pb : Pb} {A : Asg → Prop}

theorem GuardO.sound {B : Asg → Prop} {g : Option Lit} (h : GuardO pb A B s g) {m : Asg}
    (hm : cnfEval m s.k.db = true) (hg : cubeEval m g.toList = true) : B m := by
  cases g with
  | none => exact h m
  | some g => exact Guard.sound h m hm (by simpa [cubeEval_singleton] using hg)

theorem GuardO.ext {B : Asg → Prop} {g : Option Lit} (h : GuardO pb A B s g) (hi : DBInv pb A s) {t : Asg}
    (ht : pb.Sol t) (hA : A t) (hB : B t) :
    ∃ m, AgreeBelow pb.n0 t m ∧ XModel s m ∧ cubeEval m g.toList = true := by
  cases g with
  | none =>
    obtain ⟨m, h1, h2⟩ := hi.ext t ht hA
    exact ⟨m, h1, h2, rfl⟩
  | some g =>
    obtain ⟨m, h1, h2, h3⟩ := Guard.ext h t ht hA hB
    exact ⟨m, h1, h2, by simpa [cubeEval_singleton] using h3⟩

/-- State after the blocking part of `p_minimization`. -/
structure Blocked (pb : Pb) (A B : Asg → Prop) (c : List Nat) (bs : Option Lit) (s s' : Slv P C) : Prop where
  grow : Grow s s'
  io : s'.io = s.io
  noEnum : s.k.opts.enumeration = .noEnum → bs = none
  inv : ∃ A1 B1, DBInv pb A1 s' ∧ GuardO pb A1 B1 s' bs ∧ (∀ t, A1 t → A t ∧ B t) ∧
    (∀ t, A1 t ∧ B1 t ↔ (A t ∧ B t) ∧ ¬ VLe c (pb.costs t)) ∧
    (s.k.opts.enumeration ≠ .noEnum → ∀ t, A t → B t → A1 t)

theorem wp_pminBlock {B : Asg → Prop} {bs : Option Lit} {Q : Option Lit × List Lit → Slv P C → Prop} (wf : pb.WF)
    (hio : IoInv env pb.objs.length s.io) (hi : DBInv pb A s) (hg : GuardO pb A B s bs)
    (hno : s.k.opts.enumeration = .noEnum → bs = none) (t : Asg) (ht : pb.Sol t) (hA : A t) (hB : B t) {c : List Nat} (hct : VLe c (pb.costs t))
    (hQ : ∀ bs' s', Blocked pb A B c bs' s s' → Q (bs', bs'.toList) s') :
    wp env (pminBlock [] c bs) Q E s := by
  unfold pminBlock
  rw [wp_bind, wp_getS]
  by_cases hen : s.k.opts.enumeration = .noEnum
  · rw [if_pos hen]
    have hbs := hno hen
    subst hbs
    rw [wp_bind]
    refine wp_dominatedBlockClause wf t ht hA hct hi fun cl s1 hs1 hi1 hio1 hlb hsnd hex => ?_
    rw [wp_bind]
    refine wp_addClause' _ fun s2 h2 => ?_
    rw [wp_pure]
    refine hQ none s2 ⟨hs1.toGrow.trans h2.grow, by rw [h2.io, hio1], fun _ => rfl, ?_⟩
    refine ⟨fun t' => A t' ∧ ¬ VLe c (pb.costs t'), fun _ => True, ?_, fun _ => trivial,
      fun t' h => ⟨h.1, hg t'⟩, fun t' => ⟨fun h => ⟨⟨h.1.1, hg t'⟩, h.1.2⟩, fun h => ⟨⟨h.1.1, h.2⟩, trivial⟩⟩,
      fun h => absurd hen h⟩
    refine hi1.addClause h2 hlb hsnd ?_
    intro t' h1 h3 h4
    obtain ⟨m, a1, a2⟩ := hi.ext t' h1 h3
    obtain ⟨m', b1, b2, b3⟩ := hex m a2
    exact ⟨m', a1.trans (b1.mono hi.next), b2, b3 (by rw [← Pb.costs_agree wf a1]; exact h4)⟩
  · rw [if_neg hen, wp_bind]
    refine wp_commitBlock hi hg fun s1 hs1 hi1 hio1 => ?_
    rw [wp_bind]
    refine wp_tmpBlockDominated wf rfl (by rw [hio1]; exact hio) t ht ⟨hA, hB⟩ hct hi1 fun g s2 hs2 hi2 hio2 hg2 => ?_
    rw [wp_pure]
    refine hQ (some g) s2 ⟨hs1.trans hs2.toGrow, by rw [hio2, hio1], fun h => absurd h hen, ?_⟩
    exact ⟨_, _, hi2, hg2, fun _ h => h, fun _ => Iff.rfl, fun _ t h1 h2 => ⟨h1, h2⟩⟩

/-- `A'` allows the solutions of `A` that are not in the cones above some cost vectors. -/
def Shrunk (pb : Pb) (A A' : Asg → Prop) : Prop :=
  ∃ cs : List (List Nat), ∀ t, pb.Sol t → (A' t ↔ A t ∧ ∀ c ∈ cs, ¬ VLe c (pb.costs t))

theorem Shrunk.refl (A : Asg → Prop) : Shrunk pb A A := ⟨[], by simp⟩

/-- How `p_minimization` may stop early. -/
structure PMinStop (pb : Pb) (env : Env) (A : Asg → Prop) (fuel : Nat) (c : List Nat) (s : Slv P C) (e : Stop)
    (s' : Slv P C) : Prop where
  base : IoBase pb.objs.length s'.io
  panic : e ≠ .panic
  error : e = .error → LogFail env
  fuel : e = .fuel → fuel ≤ c.sum
  limit : e ≠ .terminated .ppLimit ∧ e ≠ .terminated .solsLimit
  grow : Grow s s'
  inv : ∃ A', Shrunk pb A A' ∧ DBInv pb A' s'

/-- State after `p_minimization` from a solution with costs `c0`. -/
structure PMinDone (pb : Pb) (env : Env) (A : Asg → Prop) (c0 : List Nat) (t : Asg) (n1 : Nat) (bs : Option Lit)
    (s s' : Slv P C) : Prop where
  io : IoInv env pb.objs.length s'.io
  grow : Grow s s'
  sol : pb.Sol t
  allowed : A t
  vars : pb.n0 ≤ n1
  le : VLe (pb.costs t) c0
  minimal : ∀ t', pb.Sol t' → A t' → VLe (pb.costs t') (pb.costs t) → pb.costs t' = pb.costs t
  inv : ∃ A1 B1, DBInv pb A1 s' ∧ GuardO pb A1 B1 s' bs ∧ (∀ t', A1 t' → A t') ∧
    (∀ t', A1 t' ∧ B1 t' ↔ A t' ∧ ¬ VLe (pb.costs t) (pb.costs t')) ∧
    (s.k.opts.enumeration ≠ .noEnum → ∀ t', A t' → pb.costs t' = pb.costs t → A1 t')
  noEnum : s.k.opts.enumeration = .noEnum → bs = none
  last : LastIs s'.io (pb.costs t)

theorem wp_pMinimization {Q : PMinState → Slv P C → Prop} (wf : pb.WF) (orc : OracleOK env)
    (tok : TightOK env pb) (hio : IoInv env pb.objs.length s.io) (hi : DBInv pb A s) (t0 : Asg) (ht0 : pb.Sol t0)
    (hA0 : A t0) (T0 : Asg) (hT0 : pb.Sol T0) (hAT0 : A T0) {c0 : List Nat} (hl0 : VLe (pb.costs t0) c0)
    (hu0 : VLe c0 (pb.costs T0)) (n0 : Nat) (hn0 : pb.n0 ≤ n0) (hlast : LastIs s.io c0) (fuel : Nat)
    (hQ : ∀ t n1 bs s', PMinDone pb env A c0 t n1 bs s s' → Q (pb.costs t, Assignment.ofModel t n1, bs) s')
    (hE : ∀ e s', PMinStop pb env A fuel c0 s e s' → E e s') :
    wp env (pMinimization fuel c0 (Assignment.ofModel t0 n0) []) Q E s := by
  unfold pMinimization
  rw [wp_bind, wp_getS, wp_bind]
  refine wp_dbg (by simp [hio.base.1, hu0.length_eq]) ?_
  rw [wp_bind]
  -- stopping
  have hstop : ∀ e s', IoStopQ env pb.objs.length e s' → Grow s s' → (∃ A', Shrunk pb A A' ∧ DBInv pb A' s') →
      E e s' := by
    intro e s' h1 h2 h3
    have h4 := h1.1.2
    refine hE e s' ⟨h1.1.1, ?_, ?_, ?_, h1.2, h2, h3⟩
    · rintro rfl; exact h4
    · rintro rfl; exact h4
    · rintro rfl; exact h4.elim
  refine wp_keep (hlast.logEvent _ (by intro _ _ h; cases h)) ?_
  refine wp_logEvent _ hio ?_ (fun e s' h he => hstop e s' he h.step.toGrow ⟨A, Shrunk.refl A, hi.same h⟩)
  intro s1 h1 _ hio1 hlast1
  let I : PMinState → Slv P C → Prop := fun st s' =>
    ∃ t T n, (VLe (pb.costs t) st.1 ∧ VLe st.1 (pb.costs T)) ∧ st.2.1 = Assignment.ofModel t n ∧ pb.n0 ≤ n ∧
      (pb.Sol t ∧ pb.Sol T) ∧ A t ∧
      VLe st.1 c0 ∧ (IoInv env pb.objs.length s'.io ∧ LastIs s'.io st.1) ∧ Grow s s' ∧
      (s.k.opts.enumeration = .noEnum → st.2.2 = none) ∧
      ∃ A1 B1, DBInv pb A1 s' ∧ GuardO pb A1 B1 s' st.2.2 ∧ A1 T ∧ B1 T ∧ (∀ t', A1 t' → A t') ∧ Shrunk pb A A1 ∧
        Shrunk pb A (fun t' => A1 t' ∧ B1 t') ∧
        (∀ t', A t' → ¬ VLe st.1 (pb.costs t') → A1 t' ∧ B1 t') ∧
        (∀ t', A t' → pb.costs t' = st.1 → A1 t' ∧ B1 t')
  let μ : PMinState → Slv P C → Nat := fun st _ => st.1.sum
  refine wp_loop I μ c0.sum fuel _ _ ?_ ?_ ?_ ?_
  · rintro ⟨c, sol, bs⟩ s' ⟨t, T, n, h1, h2, h3, h4, h5, h6, h7⟩
    exact h6.sum_le
  · rintro ⟨c, sol, bs⟩ s2 ⟨t, T, n, ⟨hlo, hup⟩, hsol, hn, ⟨ht, hT⟩, hA, hle, ⟨hio2, hlast2⟩, hgr2, hno2, A1, B1, hi2, hg2, hA1, hB1, hA1A, -, hsh,
      hmono, heqc⟩
    simp only at hsol hno2 hg2 hlo hup hle hlast2 hmono heqc
    subst hsol
    have ho2 : s2.k.opts = s.k.opts := hgr2.frame.opts
    unfold pminBody
    rw [wp_bind]
    refine wp_pminBlock wf hio2 hi2 hg2 (by rw [ho2]; exact hno2) T hT hA1 hB1 hup fun bs' s3 hb => ?_
    obtain ⟨A2, B2, hi3, hg3, hA2, hiff, hA2'⟩ := hb.inv
    rw [ho2] at hA2'
    have hno3 : s.k.opts.enumeration = .noEnum → bs' = none := by rw [← ho2]; exact hb.noEnum
    have hgr3 := hgr2.trans hb.grow
    have hio3 : IoInv env pb.objs.length s3.io := by rw [hb.io]; exact hio2
    have hlast3 : LastIs s3.io c := by rw [hb.io]; exact hlast2
    simp only
    rw [wp_bind]
    refine wp_enforceDominating wf rfl hio3 t ht hlo hi3 fun as s4 hs4 hi4 hio4 hdom => ?_
    have hg4 := hg3.step hi3.next hs4
    have hgr4 := hgr3.trans hs4.toGrow
    have hlast4 : LastIs s4.io c := by rw [hio4]; exact hlast3
    replace hio4 : IoInv env pb.objs.length s4.io := by rw [hio4]; exact hio3
    -- what is allowed now
    have hacc : ∀ t', A2 t' ∧ B2 t' ↔ A t' ∧ ¬ VLe c (pb.costs t') := by
      intro t'
      rw [hiff]
      constructor
      · rintro ⟨⟨h1, h2⟩, h3⟩; exact ⟨hA1A t' h1, h3⟩
      · rintro ⟨h1, h2⟩; exact ⟨hmono t' h1 h2, h2⟩
    have hsh2 : Shrunk pb A A2 := by
      by_cases hen : s.k.opts.enumeration = .noEnum
      · refine ⟨[c], fun t' _ => ?_⟩
        have hbs := hno3 hen
        subst hbs
        have := hacc t'
        constructor
        · intro h
          obtain ⟨h1, h2⟩ := this.1 ⟨h, hg3 t'⟩
          exact ⟨h1, by simpa using h2⟩
        · rintro ⟨h1, h2⟩
          exact (this.2 ⟨h1, by simpa using h2⟩).1
      · -- the committed part is the restriction at the beginning of the iteration
        have hA2iff : ∀ t', A2 t' ↔ A1 t' ∧ B1 t' := fun t' => ⟨hA2 t', fun h => hA2' hen t' h.1 h.2⟩
        obtain ⟨cs, hcs⟩ := hsh
        exact ⟨cs, fun t' ht' => by rw [hA2iff]; exact hcs t' ht'⟩
    rw [wp_bind]
    refine wp_keep (hlast4.solveAssumps _) ?_
    refine wp_solveAssumps orc _ hi4.unlimited hio4 ?_ ?_ ?_
    · intro m s5 h5 hm5 hio5 hmdb hmas hlast5
      rw [if_neg (by simp), wp_bind]
      rw [cubeEval_append] at hmas
      have hi5 := hi4.same h5
      have hgr5 := hgr4.trans h5.step.toGrow
      have hmS := hi4.sound m hmdb
      have hmacc := (hacc m).1 ⟨hmS.2, hg4.sound hmdb hmas.1⟩
      have hmle := hdom.sound m hmdb hmas.2
      refine wp_keep hlast5.checkTermination ?_
      refine wp_checkTermination hio5 ?_ (fun e s' h he => hstop e s' he (hgr5.trans h.step.toGrow)
        ⟨A2, hsh2, hi5.same h⟩)
      intro s6 h6 hk6 hio6 _ hlast6
      have hi6 := hi5.same h6
      have hgr6 := hgr5.trans h6.step.toGrow
      rw [wp_bind, wp_getS, wp_bind]
      refine wp_keep (LastIs.getSolutionAndCosts hlast6 _) ?_
      refine wp_getSolutionAndCosts (m := m) wf orc tok rfl hio6 hi6 (by rw [hk6]; exact hm5)
        (by rw [h6.db, h5.db]; exact hmdb) _ ?_ (fun e s' h he => hstop e s' he (hgr6.trans h.step.toGrow)
        ⟨A2, hsh2, hi6.same h⟩)
      intro m' c' sg hg hiog hmdb' hlo' hup' hlen' _ hlastg
      have hig := hi6.same hg
      have hgrg := hgr6.trans hg.step.toGrow
      have hmS' := hi6.sound m' hmdb'
      have hcle : VLe c' c := hup'.trans hmle
      have hcne : ¬ VLe c c' := fun h => hmacc.2 (h.trans hup')
      simp only
      rw [wp_bind]
      refine wp_logCandidate _ _ hlen' hiog ?_ (fun e s' h he => hstop e s' he (hgrg.trans h.step.toGrow)
        ⟨A2, hsh2, hig.same h⟩)
        (fun _ l hl => ⟨_, hlastg l hl, hcle, fun h => hcne (by rw [h]; exact VLe.refl _)⟩)
      intro s7 h7 _ hio7 hlast7
      have hi7 := hig.same h7
      have hgr7 := hgrg.trans h7.step.toGrow
      rw [wp_bind]
      refine wp_keep (LastIs.checkTermination hlast7) ?_
      refine wp_checkTermination hio7 ?_ (fun e s' h he => hstop e s' he (hgr7.trans h.step.toGrow)
        ⟨A2, hsh2, hi7.same h⟩)
      intro s8 h8 _ hio8 _ hlast8
      rw [wp_pure]
      refine ⟨⟨m', m, s6.k.vm.nextVar, ⟨hlo', hup'⟩, rfl, hi6.next, ⟨hmS'.1, hmS.1⟩, hA1A m' (hA2 m' hmS'.2).1,
        hcle.trans hle, ⟨hio8, hlast8⟩,
        hgr7.trans h8.step.toGrow, hno3, A2, B2, hi7.same h8, ?_, hmS.2, hg4.sound hmdb hmas.1,
        fun t' h => hA1A t' (hA2 t' h).1, hsh2, ⟨[c], fun t' _ => by simpa using hacc t'⟩, ?_, ?_⟩, ?_⟩
      · exact ((((hg4.step hi4.next h5.step).step hi5.next h6.step).step hi6.next hg.step).step hig.next h7.step).step
          hi7.next h8.step
      · intro t' h1 h2
        refine (hacc t').2 ⟨h1, fun h => h2 (hcle.trans h)⟩
      · intro t' h1 h2
        refine (hacc t').2 ⟨h1, ?_⟩
        rw [h2]
        exact hcne
      · exact hcle.sum_lt fun h => hcne (by rw [h]; exact VLe.refl _)
    · intro core s5 h5 _ hio5 hcore himp hlast5
      rw [if_pos rfl, wp_bind]
      have hi5 := hi4.same h5
      have hbest : ∀ t', pb.Sol t' → A t' → VLe (pb.costs t') c → pb.costs t' = c := by
        intro t' ht' hA' hle'
        by_contra hne
        have hnot : ¬ VLe c (pb.costs t') := fun h => hne (hle'.antisymm h)
        obtain ⟨g1, g2⟩ := (hacc t').2 ⟨hA', hnot⟩
        obtain ⟨m, a1, a2, a3⟩ := hg4.ext hi4 ht' g1 g2
        have hc : cubeEval m (bs'.toList ++ as) = true := by
          rw [cubeEval_append]
          exact ⟨a3, hdom.exact m a2 (by rw [← Pb.costs_agree wf a1]; exact hle')⟩
        have := himp m a2.db
        rw [core_false hcore hc] at this
        simp at this
      obtain rfl : pb.costs t = c := hbest t ht hA hlo
      refine wp_keep (hlast5.logEvent _ (by intro _ _ h; cases h)) ?_
      refine wp_logEvent _ hio5 ?_ (fun e s' h he => hstop e s' he ((hgr4.trans h5.step.toGrow).trans h.step.toGrow)
        ⟨A2, hsh2, hi5.same h⟩)
      intro s6 h6 _ hio6 hlast6
      rw [wp_pure]
      refine hQ t n bs' s6 ⟨hio6, (hgr4.trans h5.step.toGrow).trans h6.step.toGrow, ht, hA, hn, hle, hbest, ?_, hno3, hlast6⟩
      · refine ⟨A2, B2, hi5.same h6, (hg4.step hi4.next h5.step).step hi5.next h6.step,
          fun t' h => hA1A t' (hA2 t' h).1, hacc, fun hen t' h1 h2 => ?_⟩
        obtain ⟨g1, g2⟩ := heqc t' h1 h2
        exact hA2' hen t' g1 g2
    · intro e s5 h5 he
      exact hstop e s5 he (hgr4.trans h5.step.toGrow) ⟨A2, hsh2, hi4.same h5⟩
  · rintro ⟨c, sol, bs⟩ s' ⟨t, T, n, h1, h2, h3, h4, h5, h6, h7, h8, h9, A1, B1, g1, g2, g3, g4, g5, g6, g7⟩ hf
    exact hE _ s' ⟨h7.1.base, by simp, by simp, fun _ => hf, by simp, h8, A1, g6, g1⟩
  · exact ⟨t0, T0, n0, ⟨hl0, hu0⟩, rfl, hn0, ⟨ht0, hT0⟩, hA0, VLe.refl _, ⟨hio1, hlast1⟩, h1.step.toGrow, fun _ => rfl, A, fun _ => True,
      hi.same h1, fun _ => trivial, hAT0, trivial, fun _ h => h, Shrunk.refl A, ⟨[], by simp⟩, fun t' h _ => ⟨h, trivial⟩,
      fun t' h _ => ⟨h, trivial⟩⟩

end Scuttle
