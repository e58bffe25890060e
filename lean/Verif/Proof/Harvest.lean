import Verif.Proof.PMinProof

/-!
# Rule for the common loop of P-minimal and lower-bounding
-/

set_option linter.unusedSectionVars false

namespace Scuttle

open Spec

variable {P C : Type} [UbEnc P] [UbEnc C] [LawfulUbEnc P] [LawfulUbEnc C]
variable {env : Env} {E : Stop → Slv P C → Prop} {s : Slv P C} {pb : Pb} {A : Asg → Prop}

/-! ## Counting cost vectors -/

/-- Largest internal cost of an objective. -/
def maxCost (o : Objective) : Nat := (o.iter.map Prod.snd).sum

theorem linear_le (t : Asg) (l : List (Lit × Nat)) : linear t l ≤ (l.map Prod.snd).sum := by
  induction l with
  | nil => simp [linear]
  | cons p l ih =>
    obtain ⟨a, w⟩ := p
    simp only [linear, List.map_cons, List.sum_cons]
    split <;> omega

theorem icost_le_maxCost (o : Objective) (t : Asg) : icost o t ≤ maxCost o := linear_le t o.iter

/-- Number of vectors in the box of possible costs. -/
def Pb.boxSize (pb : Pb) : Nat := (pb.objs.map fun o => maxCost o + 1).prod

/-- Largest sum of costs. -/
def Pb.sumMax (pb : Pb) : Nat := (pb.objs.map maxCost).sum

/-- All vectors in a box. -/
def boxList : List Nat → List (List Nat)
  | [] => [[]]
  | n :: ns => (List.range n).flatMap fun x => (boxList ns).map (x :: ·)

theorem length_boxList (ns : List Nat) : (boxList ns).length = ns.prod := by
  induction ns with
  | nil => rfl
  | cons n ns ih => simp [boxList, List.length_flatMap, ih]

theorem mem_boxList {os : List Objective} (t : Asg) :
    os.map (fun o => icost o t) ∈ boxList (os.map fun o => maxCost o + 1) := by
  induction os with
  | nil => simp [boxList]
  | cons o os ih =>
    simp only [List.map_cons, boxList, List.mem_flatMap, List.mem_range, List.mem_map]
    exact ⟨icost o t, Nat.lt_succ_of_le (icost_le_maxCost o t), _, ih, rfl⟩

theorem length_le_boxSize {cs : List (List Nat)} (hn : cs.Nodup) (h : ∀ c ∈ cs, ∃ t, pb.costs t = c) :
    cs.length ≤ pb.boxSize := by
  unfold Pb.boxSize
  rw [← length_boxList]
  refine (List.subperm_of_subset hn ?_).length_le
  intro c hc
  obtain ⟨t, rfl⟩ := h c hc
  exact mem_boxList t

theorem costs_sum_le (pb : Pb) (t : Asg) : (pb.costs t).sum ≤ pb.sumMax := by
  unfold Pb.costs Pb.sumMax
  induction pb.objs with
  | nil => simp
  | cons o os ih =>
    simp only [List.map_cons, List.sum_cons]
    have := icost_le_maxCost o t
    omega

/-- Number of iterations that suffices for every loop. -/
def Pb.bound (pb : Pb) : Nat := pb.boxSize + pb.sumMax + 2 ^ pb.nOrig

/-! ## The invariant -/

/-- Invariant on the allowed solutions and the reported cost vectors. -/
structure Abs (pb : Pb) (A : Asg → Prop) (cs : List (List Nat)) : Prop where
  cone : ∀ t, pb.NonDom t → ¬ A t → ∀ t', pb.Sol t' → VLe (pb.costs t) (pb.costs t') → ¬ A t'
  notdom : ∀ t, pb.Sol t → A t → ∀ c ∈ cs, ¬ VLe c (pb.costs t)

/-- Every non-dominated cost vector is reported or still allowed. -/
def Cover (pb : Pb) (A : Asg → Prop) (cs : List (List Nat)) : Prop := ∀ t, pb.NonDom t → A t ∨ pb.costs t ∈ cs

/-- The reported points. -/
structure FrontOK (pb : Pb) (front : ParetoFront Assignment) (cs : List (List Nat)) : Prop where
  points : List.Forall₂ (PointOK pb) front cs
  nodup : cs.Nodup

/-- The invariant between iterations. -/
structure Core (pb : Pb) (A : Asg → Prop) (cs : List (List Nat)) (s : Slv P C) : Prop where
  inv : DBInv pb A s
  abs : Abs pb A cs
  front : FrontOK pb s.front cs
  full : List.Forall₂ (EnumFull pb s.k.opts.enumeration (blkOf s.k)) s.front cs

theorem Shrunk.abs {A' : Asg → Prop} {cs : List (List Nat)} (h : Shrunk pb A A') (ha : Abs pb A cs) : Abs pb A' cs := by
  obtain ⟨ds, hd⟩ := h
  refine ⟨?_, ?_⟩
  · intro t ht hn t' ht' hle hA'
    rw [hd t' ht'] at hA'
    rw [hd t ht.1] at hn
    by_cases hA : A t
    · apply hn
      refine ⟨hA, fun c hc hv => hA'.2 c hc (hv.trans hle)⟩
    · exact ha.cone t ht hA t' ht' hle hA'.1
  · intro t ht hA'
    exact ha.notdom t ht ((hd t ht).1 hA').1

theorem FrontOK.length {front : ParetoFront Assignment} {cs : List (List Nat)} (h : FrontOK pb front cs) :
    front.length ≤ pb.boxSize := by
  rw [h.points.length_eq]
  refine length_le_boxSize h.nodup ?_
  intro c hc
  have hp := h.points
  revert hc
  generalize hf : front = f at hp
  clear hf h
  induction hp with
  | nil => simp
  | cons h1 _ ih =>
    intro hc
    simp only [List.mem_cons] at hc
    rcases hc with rfl | hc
    · obtain ⟨t, _, h, _⟩ := h1.costs
      exact ⟨t, h⟩
    · exact ih hc

theorem Forall₂_snoc {α β : Type} {R : α → β → Prop} {l : List α} {k : List β} {a : α} {b : β} (h : List.Forall₂ R l k)
    (hab : R a b) : List.Forall₂ R (l ++ [a]) (k ++ [b]) := by
  induction h with
  | nil => exact .cons hab .nil
  | cons h1 _ ih => exact .cons h1 ih

theorem FrontOK.snoc {front : ParetoFront Assignment} {cs : List (List Nat)} {p c} (h : FrontOK pb front cs)
    (hp : PointOK pb p c) (hc : c ∉ cs) : FrontOK pb (front ++ [p]) (cs ++ [c]) := by
  refine ⟨Forall₂_snoc h.points hp, ?_⟩
  rw [List.nodup_append]
  refine ⟨h.nodup, by simp, ?_⟩
  intro a ha b hb
  simp only [List.mem_singleton] at hb
  subst hb
  intro h; subst h; exact hc ha

/-- As `Grow`, but points may have been added to the front. -/
structure Ext (s s' : Slv P C) : Prop where
  opts : s'.k.opts = s.k.opts
  bcg : s'.k.bcg = s.k.bcg
  fence : s'.fence = s.fence
  enc : EncStep s s'
  next : s.k.vm.nextVar ≤ s'.k.vm.nextVar
  db : ∃ cs, s'.k.db = s.k.db ++ cs

theorem Ext.refl (s : Slv P C) : Ext s s := ⟨rfl, rfl, rfl, EncStep.refl s, Nat.le_refl _, [], by simp⟩

theorem Ext.trans {s s' s'' : Slv P C} (h : Ext s s') (h' : Ext s' s'') : Ext s s'' := by
  refine ⟨h'.opts.trans h.opts, h'.bcg.trans h.bcg, h'.fence.trans h.fence, h.enc.trans h'.enc,
    Nat.le_trans h.next h'.next, ?_⟩
  obtain ⟨a, ha⟩ := h.db
  obtain ⟨b, hb⟩ := h'.db
  exact ⟨a ++ b, by rw [hb, ha, List.append_assoc]⟩

theorem Grow.toExt {s s' : Slv P C} (h : Grow s s') : Ext s s' :=
  ⟨h.frame.opts, h.frame.bcg, h.frame.fence, h.enc, h.next, h.db⟩

theorem YieldDone.toExt {B c g} {s s' : Slv P C} (h : YieldDone pb env A B c g s s') : Ext s s' :=
  ⟨h.opts, h.bcg, h.fence, h.enc, h.next, h.db⟩

theorem Core.grow {A' cs} {s s' : Slv P C} (h : Core pb A cs s) (hg : Grow s s') (ha : Abs pb A' cs)
    (hi : DBInv pb A' s') : Core pb A' cs s' := by
  refine ⟨hi, ha, by rw [hg.frame.front]; exact h.front, ?_⟩
  have : blkOf s'.k = blkOf s.k := by
    unfold blkOf; rw [hg.frame.opts, hg.frame.bcg, hi.objs, ← h.inv.objs]
  rw [hg.frame.front, hg.frame.opts, this]
  exact h.full

/-- How the solvers may stop early. -/
structure SolveStop (pb : Pb) (env : Env) (fuel N : Nat) (A : Asg → Prop) (cs : List (List Nat)) (s : Slv P C) (e : Stop)
    (s' : Slv P C) : Prop where
  base : IoBase pb.objs.length s'.io
  panic : e ≠ .panic
  error : e = .error → LogFail env
  fuel : e = .fuel → fuel ≤ N
  opts : s'.k.opts = s.k.opts
  bcg : s'.k.bcg = s.k.bcg
  front : ∃ cs', FrontOK pb s'.front cs'
  noEnum : s.k.opts.enumeration = .noEnum → s'.fence = s.fence ∧ EncStep s s' ∧ ∃ A' cs', Core pb A' cs' s' ∧
    (e = .terminated .ppLimit ∨ e = .terminated .solsLimit → Cover pb A cs → Cover pb A' cs')

/-- State after the loop. -/
structure HarvestDone (pb : Pb) (env : Env) (A : Asg → Prop) (cs : List (List Nat)) (fa : List Lit)
    (s s' : Slv P C) : Prop where
  io : IoInv env pb.objs.length s'.io
  ext : Ext s s'
  front : s.front.length ≤ s'.front.length
  blocked : ∀ m, cnfEval m s'.k.db = true → cubeEval m fa = false
  core : ∃ A' cs', Core pb A' cs' s' ∧ (Cover pb A cs → Cover pb A' cs')
  progress : (∃ m, cnfEval m s.k.db = true ∧ cubeEval m fa = true) → s.front.length < s'.front.length

theorem wp_harvestLoop {Q : Unit → Slv P C → Prop} {cs : List (List Nat)} (wf : pb.WF) (orc : OracleOK env) (tok : TightOK env pb)
    (hfit : pb.Fits) (hio : IoInv env pb.objs.length s.io) (hcore : Core pb A cs s)
    (hblk : s.k.opts.enumeration ≠ .noEnum → BlockOK pb (blkOf s.k))
    (hpb : pb.en = s.k.opts.enumeration ∧ pb.blk = blkOf s.k) (fa : List Lit) (fuel : Nat)
    (hQ : ∀ s', HarvestDone pb env A cs fa s s' → Q () s')
    (hE : ∀ e s', SolveStop pb env fuel pb.bound A cs s e s' → E e s') :
    wp env (loopM (harvestBody fuel fa []) fuel ()) Q E s := by
  let I : Unit → Slv P C → Prop := fun _ s' =>
    IoInv env pb.objs.length s'.io ∧ Ext s s' ∧ s.front.length ≤ s'.front.length ∧
      (∃ A' cs', Core pb A' cs' s' ∧ (Cover pb A cs → Cover pb A' cs')) ∧
      (s'.front.length = s.front.length → s'.k.db = s.k.db)
  let μ : Unit → Slv P C → Nat := fun _ s' => pb.boxSize - s'.front.length
  refine wp_loop I μ pb.boxSize fuel _ _ (fun _ s' _ => Nat.sub_le _ _) ?_ ?_ ?_
  · rintro _ s1 ⟨hio1, hext1, hlen1, ⟨A1, cs1, hcore1, hcov1⟩, hdb1⟩
    have hi1 := hcore1.inv
    -- stopping with the same front
    have hstop : ∀ e s', IoStopQ env pb.objs.length e s' → Same s1 s' → E e s' := by
      intro e s' h1 h2
      have h3 := h1.1.2
      refine hE e s' ⟨h1.1.1, ?_, ?_, ?_, by rw [h2.opts]; exact hext1.opts, by rw [h2.bcg]; exact hext1.bcg,
        ⟨cs1, by rw [h2.front]; exact hcore1.front⟩, fun _ => ⟨by rw [h2.fence]; exact hext1.fence,
          hext1.enc.trans h2.step.enc, A1, cs1, hcore1.grow h2.step.toGrow hcore1.abs (hi1.same h2), fun _ => hcov1⟩⟩
      · rintro rfl; exact h3
      · rintro rfl; exact h3
      · rintro rfl; exact h3.elim
    unfold harvestBody
    rw [wp_bind]
    refine wp_solveAssumps orc fa hi1.unlimited hio1 ?_ ?_ (fun e s' h he => hstop e s' he h)
    · intro m s2 h2 hm2 hio2 hmdb hmas
      have hi2 := hi1.same h2
      rw [if_neg (by simp), wp_bind]
      refine wp_checkTermination hio2 ?_ (fun e s' h he => hstop e s' he (h2.trans h))
      intro s3 h3 hk3 hio3 _
      have hi3 := hi2.same h3
      have h13 := h2.trans h3
      rw [wp_bind, wp_getS, wp_bind]
      refine wp_getSolutionAndCosts (m := m) wf orc tok rfl hio3 hi3 (by rw [hk3]; exact hm2)
        (by rw [h13.db]; exact hmdb) _ ?_ (fun e s' h he => hstop e s' he (h13.trans h))
      intro m' c0 sg hg hiog hmdb' hlo0 hup0 hlen0 _
      have hig := hi3.same hg
      simp only
      rw [wp_bind]
      refine wp_logCandidate _ _ hlen0 hiog ?_ (fun e s' h he => hstop e s' he ((h13.trans hg).trans h))
      intro s4 h4 _ hio4 hlast4
      have hi4 := hig.same h4
      have h14 := (h13.trans hg).trans h4
      rw [wp_bind]
      refine wp_keep (LastIs.checkTermination hlast4) ?_
      refine wp_checkTermination hio4 ?_ (fun e s' h he => hstop e s' he (h14.trans h))
      intro s5 h5 _ hio5 _ hlast5
      have hi5 := hi4.same h5
      have h15 := h14.trans h5
      have hmS := hi1.sound m hmdb
      have hmS' := hi3.sound m' hmdb'
      rw [wp_bind]
      refine wp_pMinimization wf orc tok hio5 hi5 m' hmS'.1 hmS'.2 m hmS.1 hmS.2 hlo0 hup0 s3.k.vm.nextVar hi3.next hlast5 fuel ?_ ?_
      · intro t n1 bs s6 hd
        obtain ⟨A2, B2, hi6, hg6, hA21, hacc, heqc⟩ := hd.inv
        have ho5 : s5.k.opts = s.k.opts := by rw [h15.opts, hext1.opts]
        rw [ho5] at heqc
        have ho6 : s6.k.opts = s.k.opts := by rw [hd.grow.frame.opts]; exact ho5
        -- the candidate is not dominated
        have hnd : pb.NonDom t := by
          refine ⟨hd.sol, fun t' ht' hle => ?_⟩
          obtain ⟨t'', h1, h2⟩ := pb.exists_nonDom_le t' ht'
          have hle2 := h2.trans hle
          by_cases hA : A1 t''
          · have h3 := hd.minimal t'' h1.1 hA hle2
            rw [h3] at h2
            exact hle.antisymm h2
          · exact absurd hd.allowed (hcore1.abs.cone t'' h1 hA t hd.sol hle2)
        have hAall : ∀ t', pb.Sol t' → pb.costs t' = pb.costs t → A1 t' := by
          intro t' ht' hc
          by_contra hA
          refine hcore1.abs.cone t' ⟨ht', fun t'' h1 h2 => ?_⟩ hA t hd.sol (by rw [hc]; exact VLe.refl _) hd.allowed
          rw [hc] at h2 ⊢
          exact hnd.2 t'' h1 h2
        have hcnew : pb.costs t ∉ cs1 := fun h => hcore1.abs.notdom t hd.sol hd.allowed _ h (VLe.refl _)
        have h16 : Grow s1 s6 := h15.step.toGrow.trans hd.grow
        simp only
        rw [wp_bind]
        refine wp_enforceDominating wf rfl hd.io t hd.sol (VLe.refl _) hi6 fun as s7 hs7 hi7 hio7 hdom => ?_
        have hg7 := hg6.step hi6.next hs7
        have h17 := h16.trans hs7.toGrow
        have ho7 : s7.k.opts = s.k.opts := by rw [hs7.frame.opts]; exact ho6
        have hblk7 : blkOf s7.k = blkOf s.k := by
          unfold blkOf
          rw [ho7, h17.frame.bcg, hext1.bcg, hi7.objs, ← hcore.inv.objs]
        rw [wp_bind]
        refine wp_yieldSolutions wf orc hfit (by rw [hio7]; exact hd.io) hi7 hg7 t hnd n1 hd.vars as (fun _ => hdom)
          fuel ?_ ⟨by rw [ho7]; exact hpb.1, by rw [hblk7]; exact hpb.2⟩ ?_ ?_
        · intro hen
          rw [ho7] at hen
          refine ⟨?_, fun t' ht' hc => heqc hen t' (hAall t' ht' hc) hc⟩
          rw [hblk7]
          exact hblk hen
        · intro s8 hy
          obtain ⟨A3, hA32, hA23, hi8, hg8⟩ := hy.inv
          rw [wp_bind]
          refine wp_commitBlock hi8 hg8 fun s9 hs9 hi9 hio9 => ?_
          rw [wp_pure]
          obtain ⟨p, hp1, hp2, hp3⟩ := hy.front
          have hiff : ∀ t', pb.Sol t' → ((A3 t' ∧ B2 t') ↔ A1 t' ∧ ¬ VLe (pb.costs t) (pb.costs t')) := by
            intro t' ht'
            rw [← hacc]
            constructor
            · rintro ⟨h1, h2⟩; exact ⟨hA32 t' h1, h2⟩
            · rintro ⟨h1, h2⟩; exact ⟨hA23 t' ht' h1 ((hacc t').1 ⟨h1, h2⟩).2, h2⟩
          have hfr9 : s9.front = s1.front ++ [p] := by rw [hs9.frame.front, hp1, h17.frame.front]
          have hext9 : Ext s1 s9 := (h17.toExt.trans hy.toExt).trans hs9.toExt
          have hlenlt : s1.front.length < s9.front.length := by rw [hfr9]; simp
          have hnewcore : Core pb (fun t' => A3 t' ∧ B2 t') (cs1 ++ [pb.costs t]) s9 := by
            refine ⟨hi9, ⟨?_, ?_⟩, ?_, ?_⟩
            · have : Shrunk pb A1 (fun t' => A3 t' ∧ B2 t') := ⟨[pb.costs t], fun t' ht' => by simpa using hiff t' ht'⟩
              exact (this.abs hcore1.abs).cone
            · intro t' ht' hA' c hc
              rw [hiff t' ht'] at hA'
              simp only [List.mem_append, List.mem_singleton] at hc
              rcases hc with hc | rfl
              · exact hcore1.abs.notdom t' ht' hA'.1 c hc
              · exact hA'.2
            · rw [hfr9]
              exact hcore1.front.snoc hp2 hcnew
            · have hb9 : blkOf s9.k = blkOf s7.k := by
                unfold blkOf
                rw [hs9.frame.opts, hy.opts, hs9.frame.bcg, hy.bcg, hi9.objs, ← hi7.objs]
              have hb7 : blkOf s7.k = blkOf s1.k := by
                unfold blkOf
                rw [h17.frame.opts, h17.frame.bcg, hi7.objs, ← hi1.objs]
              have ho9 : s9.k.opts = s1.k.opts := hext9.opts
              rw [hfr9, ho9, hb9, hb7]
              refine Forall₂_snoc hcore1.full ?_
              rw [← hb7, ← h17.frame.opts]
              exact hp3
          have hI9 : I () s9 := by
            refine ⟨by rw [hio9]; exact hy.io, hext1.trans hext9, by omega, ⟨_, _, hnewcore, ?_⟩, fun h => by omega⟩
            intro hcov t' ht'
            rcases hcov1 hcov t' ht' with h | h
            · by_cases hv : VLe (pb.costs t) (pb.costs t')
              · right
                have := ht'.2 t hd.sol hv
                simp [this]
              · exact .inl ((hiff t' ht'.1).2 ⟨h, hv⟩)
            · exact .inr (by simp [h])
          refine ⟨hI9, ?_⟩
          have := hnewcore.front.length
          simp only [μ]
          omega
        · intro e s8 hy
          have hfr7 : s7.front = s1.front := h17.frame.front
          refine hE e s8 ⟨hy.base, hy.panic, hy.error, fun h => ?_, by rw [hy.opts]; exact ho7,
            by rw [hy.bcg, h17.frame.bcg, hext1.bcg], ?_, ?_⟩
          · have := hy.fuel h
            unfold Pb.bound
            omega
          · rcases hy.front with h | ⟨p, h, hp⟩
            · exact ⟨cs1, by rw [h, hfr7]; exact hcore1.front⟩
            · exact ⟨cs1 ++ [pb.costs t], by rw [h, hfr7]; exact hcore1.front.snoc hp hcnew⟩
          · intro hno
            obtain ⟨hf8, he8, hi8, hfr⟩ := hy.noEnum (by rw [ho7]; exact hno)
            have hbs := hd.noEnum (by rw [ho5]; exact hno)
            subst hbs
            have hA2iff : ∀ t', A2 t' ↔ A1 t' ∧ ¬ VLe (pb.costs t) (pb.costs t') := by
              intro t'
              rw [← hacc]
              exact ⟨fun h => ⟨h, hg6 t'⟩, fun h => h.1⟩
            have hshr : Shrunk pb A1 A2 := ⟨[pb.costs t], fun t' _ => by rw [hA2iff]; simp⟩
            refine ⟨by rw [hf8, h17.frame.fence, hext1.fence], (hext1.enc.trans h17.enc).trans he8, A2, ?_⟩
            have hb8 : blkOf s8.k = blkOf s1.k := by
              unfold blkOf
              rw [hy.opts, hy.bcg, h17.frame.opts, h17.frame.bcg, hi8.objs, ← hi1.objs]
            have ho8 : s8.k.opts = s1.k.opts := by rw [hy.opts, h17.frame.opts]
            rcases hfr with ⟨hn1, hn2, hfr⟩ | ⟨p, hfr, hp, hp1⟩
            · refine ⟨cs1, ⟨hi8, hshr.abs hcore1.abs, by rw [hfr, hfr7]; exact hcore1.front, ?_⟩, ?_⟩
              · rw [hfr, hfr7, hb8, ho8]; exact hcore1.full
              · rintro (h | h)
                · exact absurd h hn1
                · exact absurd h hn2
            · refine ⟨cs1 ++ [pb.costs t], ⟨hi8, ⟨(hshr.abs hcore1.abs).cone, ?_⟩, ?_, ?_⟩, ?_⟩
              · intro t' ht' hA' c hc
                rw [hA2iff t'] at hA'
                simp only [List.mem_append, List.mem_singleton] at hc
                rcases hc with hc | rfl
                · exact hcore1.abs.notdom t' ht' hA'.1 c hc
                · exact hA'.2
              · rw [hfr, hfr7]; exact hcore1.front.snoc hp hcnew
              · rw [hfr, hfr7, hb8, ho8]
                refine Forall₂_snoc hcore1.full ?_
                have : s1.k.opts.enumeration = .noEnum := by rw [hext1.opts]; exact hno
                rw [this]
                exact hp1
              · intro _ hcov t' ht'
                rcases hcov1 hcov t' ht' with h | h
                · by_cases hv : VLe (pb.costs t) (pb.costs t')
                  · right
                    have := ht'.2 t hd.sol hv
                    simp [this]
                  · exact .inl ((hA2iff t').2 ⟨h, hv⟩)
                · exact .inr (by simp [h])
      · intro e s6 hp
        obtain ⟨A2, hsh, hi6⟩ := hp.inv
        have h16 : Grow s1 s6 := h15.step.toGrow.trans hp.grow
        refine hE e s6 ⟨hp.base, hp.panic, hp.error, fun h => ?_, by rw [h16.frame.opts]; exact hext1.opts,
          by rw [h16.frame.bcg]; exact hext1.bcg, ⟨cs1, by rw [h16.frame.front]; exact hcore1.front⟩, fun _ =>
          ⟨by rw [h16.frame.fence]; exact hext1.fence, hext1.enc.trans h16.enc, A2, cs1,
            hcore1.grow h16 (hsh.abs hcore1.abs) hi6, ?_⟩⟩
        · have := hp.fuel h
          have := costs_sum_le pb m
          have := hup0.sum_le
          unfold Pb.bound
          generalize 2 ^ pb.nOrig = x
          omega
        · rintro (h | h)
          · exact absurd h hp.limit.1
          · exact absurd h hp.limit.2
    · intro core s2 h2 _ hio2 hc himp
      rw [if_pos rfl, wp_bind]
      refine wp_logEvent _ hio2 ?_ (fun e s' h he => hstop e s' he (h2.trans h))
      intro s3 h3 _ hio3
      have h13 := h2.trans h3
      rw [wp_pure]
      have hbl : ∀ m, cnfEval m s1.k.db = true → cubeEval m fa = false := by
        intro m hm
        by_contra hfa
        have := himp m hm
        rw [core_false hc (by simpa using hfa)] at this
        simp at this
      refine hQ s3 ⟨hio3, hext1.trans h13.step.toGrow.toExt, by rw [h13.front]; exact hlen1, ?_,
        ⟨A1, cs1, hcore1.grow h13.step.toGrow hcore1.abs (hi1.same h13), hcov1⟩, ?_⟩
      · rw [h13.db]; exact hbl
      · rintro ⟨m, hm1, hm2⟩
        rw [h13.front]
        by_contra hlt
        have heq : s1.front.length = s.front.length := by omega
        rw [← hdb1 heq] at hm1
        rw [hbl m hm1] at hm2
        simp at hm2
  · rintro _ s1 ⟨hio1, hext1, hlen1, ⟨A1, cs1, hcore1, hcov1⟩, -⟩ hf
    refine hE _ s1 ⟨hio1.base, by simp, by simp, fun _ => ?_, hext1.opts, hext1.bcg, ⟨cs1, hcore1.front⟩, fun _ =>
      ⟨hext1.fence, hext1.enc, A1, cs1, hcore1, by simp⟩⟩
    unfold Pb.bound
    generalize 2 ^ pb.nOrig = x
    omega
  · exact ⟨hio, Ext.refl s, Nat.le_refl _, ⟨A, cs, hcore, fun h => h⟩, fun _ => rfl⟩

end Scuttle
