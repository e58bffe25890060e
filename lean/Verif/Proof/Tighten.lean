import Verif.Proof.Guard
import Verif.Proof.IoLogic

/-!
# Rules for costs with solution tightening
-/

set_option linter.unusedSectionVars false

namespace Scuttle

open Spec

variable {P C : Type} [UbEnc P] [UbEnc C] [LawfulUbEnc P] [LawfulUbEnc C]
variable {env : Env} {E : Stop → Slv P C → Prop} {s : Slv P C} {pb : Pb} {A : Asg → Prop}

/-- If tightening is compiled in, the objectives have no literal twice and no weight that is zero. -/
def TightOK (env : Env) (pb : Pb) : Prop :=
  env.tighten = true → ∀ o ∈ pb.objs, (o.iter.map Prod.fst).Nodup ∧ ∀ p ∈ o.iter, 0 < p.2

/-- The solution has the values of the model on the literals of the objectives. -/
structure SolFits (objs : List Objective) (n : Nat) (m : Asg) (sol : Assignment) : Prop where
  len : sol.length = n
  val : ∀ o ∈ objs, ∀ p ∈ o.iter, sol.litValue p.1 = .tt ↔ p.1.eval m = true

theorem SolFits.ofModel {objs : List Objective} {n : Nat} (h : ∀ o ∈ objs, ∀ p ∈ o.iter, p.1.var < n) (m : Asg) :
    SolFits objs n m (Assignment.ofModel m n) := by
  refine ⟨by simp, fun o ho p hp => ?_⟩
  rw [Assignment.litValue_ofModel _ _ _ (h o ho p hp)]
  cases p.1.eval m <;> simp [TV.ofBool]

theorem length_assignLit (a : Assignment) (l : Lit) (h : l.var < a.length) : (a.assignLit l).length = a.length := by
  have : l.var + 1 - a.length = 0 := by omega
  simp [Assignment.assignLit, this]

theorem litValue_assignLit_self (a : Assignment) (l : Lit) (h : l.var < a.length) : (a.assignLit l).litValue l = .tt := by
  have : l.var + 1 - a.length = 0 := by omega
  unfold Assignment.litValue Assignment.varValue
  simp only [Assignment.assignLit, this, List.replicate_zero, List.append_nil, List.getD_eq_getElem?_getD,
    List.getElem?_set_self h, Option.getD_some]
  cases l.neg <;> rfl

theorem litValue_assignLit_ne (a : Assignment) (l x : Lit) (h : l.var < a.length) (hx : x.var ≠ l.var) :
    (a.assignLit l).litValue x = a.litValue x := by
  have : l.var + 1 - a.length = 0 := by omega
  unfold Assignment.litValue Assignment.varValue
  simp only [Assignment.assignLit, this, List.replicate_zero, List.append_nil, List.getD_eq_getElem?_getD]
  rw [List.getElem?_set_ne (by omega)]

theorem litValue_not (a : Assignment) (l : Lit) : a.litValue l.not = .tt → a.litValue l ≠ .tt := by
  unfold Assignment.litValue
  simp only [Lit.not]
  cases a.varValue l.var <;> cases l.neg <;> simp

theorem lit_of_var {l x : Lit} (h : x.var = l.var) : x = l ∨ x = l.not := by
  obtain ⟨v, n⟩ := l
  obtain ⟨w, k⟩ := x
  simp only [Lit.not] at *
  subst h
  cases n <;> cases k <;> simp

/-- What flipping the literal `l`, which is true in `m`, changes. -/
structure Flipped (objs : List Objective) (db : List Clause) (l : Lit) (m m' : Asg) : Prop where
  db : cnfEval m' db = true
  flip : l.eval m' = false
  keep : ∀ o ∈ objs, ∀ p ∈ o.iter, p.1 ≠ l → p.1.eval m' = p.1.eval m

theorem wp_tryFlip {Q : Bool → Slv P C → Prop} (orc : OracleOK env) {l : Lit} {m : Asg}
    (hm : s.k.ostate = .sat m) (hdb : cnfEval m s.k.db = true)
    (h1 : ∀ m', Flipped s.k.objs s.k.db l m m' → Q true { s with k := { s.k with ostate := .sat m' } }) (h2 : Q false s) :
    wp env (tryFlip l) Q E s := by
  unfold tryFlip
  rw [wp_bind, wp_getS]
  split
  · exact h2
  · next hin =>
    unfold wp flipLit
    rw [hm]
    dsimp only
    cases hf : env.flip s.io.tick s.k.db s.k.frozen m l.not with
    | none => exact h2
    | some m' =>
      obtain ⟨a1, a2, a3⟩ := orc.flip _ _ _ _ _ _ hf hdb
      refine h1 m' ⟨a1, by rw [Lit.eval_not] at a2; simpa using a2, fun o ho p hp hne => ?_⟩
      have hv : p.1.var ≠ l.var := by
        intro hv
        rcases lit_of_var hv with h | h
        · exact hne h
        · apply hin
          simp only [Kern.inObjs, List.any_eq_true]
          exact ⟨o, ho, p, hp, by simp [h]⟩
      have := a3 p.1.var (by
        simp only [Kern.frozen, List.mem_flatMap, List.mem_map]
        exact ⟨o, ho, p, hp, rfl⟩) hv
      unfold Lit.eval
      rw [this]

/-- Outcome of the loop over literals `ps` of an objective. -/
structure Tightened (objs : List Objective) (db : List Clause) (ps : List (Lit × Nat)) (n : Nat) (m : Asg)
    (sol : Assignment) (r : Nat × Nat × Assignment) (m' : Asg) : Prop where
  db : cnfEval m' db = true
  fits : SolFits objs n m' r.2.2
  less : ∀ o ∈ objs, ∀ p ∈ o.iter, p.1.eval m' = true → p.1.eval m = true
  keep : ∀ o ∈ objs, ∀ p ∈ o.iter, p.1 ∉ ps.map Prod.fst → p.1.eval m' = p.1.eval m
  cost : r.1 = linear m' ps
  total : r.1 + r.2.1 = linear m ps
  same : r.2.1 = 0 → m' = m ∧ r.2.2 = sol

theorem linear_mono {t t' : Asg} {ps : List (Lit × Nat)} (h : ∀ p ∈ ps, p.1.eval t' = true → p.1.eval t = true) :
    linear t' ps ≤ linear t ps := by
  induction ps with
  | nil => exact Nat.le_refl _
  | cons p ps ih =>
    have h1 := ih fun p hp => h p (by simp [hp])
    have h2 := h p (by simp)
    simp only [linear, ← Lit.eval_iff]
    split
    · next h3 => rw [if_pos (h2 h3)]; omega
    · omega

theorem wp_tightenLoop (orc : OracleOK env) {o : Objective} {n : Nat} (hvar : ∀ o ∈ s.k.objs, ∀ p ∈ o.iter, p.1.var < n)
    (ho : o ∈ s.k.objs) (ps : List (Lit × Nat)) {Q : Nat × Nat × Assignment → Slv P C → Prop}
    (hnd : (ps.map Prod.fst).Nodup) (hsub : ∀ p ∈ ps, p ∈ o.iter) (hpos : ∀ p ∈ ps, 0 < p.2) {m : Asg} {sol : Assignment}
    (hm : s.k.ostate = .sat m) (hdb : cnfEval m s.k.db = true) (hfit : SolFits s.k.objs n m sol)
    (hQ : ∀ r m', Tightened s.k.objs s.k.db ps n m sol r m' → Q r { s with k := { s.k with ostate := .sat m' } }) :
    wp env (tightenLoop ps sol) Q E s := by
  induction ps generalizing s m sol Q with
  | nil =>
    unfold tightenLoop
    rw [wp_pure]
    have := hQ (0, 0, sol) m ⟨hdb, hfit, fun _ _ _ _ h => h, fun _ _ _ _ _ => rfl, rfl, rfl, fun _ => ⟨rfl, rfl⟩⟩
    rw [← hm] at this
    exact this
  | cons x ps ih =>
    obtain ⟨l, w⟩ := x
    simp only [List.map_cons, List.nodup_cons] at hnd
    have hl : (l, w) ∈ o.iter := hsub _ (by simp)
    unfold tightenLoop
    -- the literal keeps its value in the rest of the loop
    have hrest : ∀ {m1 m' : Asg} {sol1 : Assignment} {r : Nat × Nat × Assignment},
        Tightened s.k.objs s.k.db ps n m1 sol1 r m' → l.eval m' = l.eval m1 := fun h => h.keep o ho (l, w) hl hnd.1
    have hcost : ∀ (m' : Asg), linear m' ((l, w) :: ps) = (if l.eval m' = true then w else 0) + linear m' ps := by
      intro m'
      simp only [linear, Lit.eval_iff]
    split
    · next htt =>
      rw [wp_bind]
      refine wp_tryFlip orc hm hdb (fun m1 hf => ?_) ?_
      · rw [if_pos rfl, wp_bind]
        have hlt : l.var < sol.length := by rw [hfit.len]; exact hvar o ho _ hl
        have hlt' : l.not.var < sol.length := hlt
        refine ih (s := { s with k := { s.k with ostate := .sat m1 } }) hvar ho hnd.2 (fun p hp => hsub p (by simp [hp])) (fun p hp => hpos p (by simp [hp]))
          rfl hf.db ⟨by rw [length_assignLit _ _ hlt']; exact hfit.len, fun o' ho' p hp => ?_⟩ fun r m' h => ?_
        · by_cases hpl : p.1 = l
          · rw [hpl, hf.flip]
            simp only [Bool.false_eq_true, iff_false]
            exact litValue_not _ _ (litValue_assignLit_self _ _ hlt')
          · rw [hf.keep o' ho' p hp hpl]
            by_cases hv : p.1.var = l.var
            · -- the negation would be in an objective
              rcases lit_of_var hv with h | h
              · exact absurd h hpl
              · have h1 := hf.keep o' ho' p hp hpl
                have h2 := (hfit.val o ho _ hl).1 htt
                rw [h, Lit.eval_not, Lit.eval_not, hf.flip, h2] at h1
                simp at h1
            · rw [litValue_assignLit_ne _ _ _ hlt' (by exact hv)]
              exact hfit.val o' ho' p hp
        · rw [wp_pure]
          refine hQ (r.1, r.2.1 + w, r.2.2) m' ⟨h.db, h.fits, fun o' ho' p hp he => ?_, fun o' ho' p hp hn => ?_, ?_, ?_, fun h0 => ?_⟩
          · by_cases hpl : p.1 = l
            · rw [hpl]; exact (hfit.val o ho _ hl).1 htt
            · rw [← hf.keep o' ho' p hp hpl]; exact h.less o' ho' p hp he
          · simp only [List.map_cons, List.mem_cons, not_or] at hn
            rw [h.keep o' ho' p hp hn.2, hf.keep o' ho' p hp hn.1]
          · rw [hcost, hrest h, hf.flip, h.cost]; simp
          · have h1 : linear m1 ps = linear m ps := by
              have : ∀ p ∈ ps, p.1.eval m1 = p.1.eval m := by
                intro p hp
                refine hf.keep o ho p (hsub p (by simp [hp])) ?_
                rintro rfl
                exact hnd.1 (List.mem_map_of_mem hp)
              exact Nat.le_antisymm (linear_mono fun p hp he => by rw [← this p hp]; exact he)
                (linear_mono fun p hp he => by rw [this p hp]; exact he)
            have h2 := h.total
            rw [hcost, (hfit.val o ho _ hl).1 htt, if_pos rfl]
            simp only
            omega
          · have := hpos (l, w) (by simp)
            simp only at h0 this
            omega
      · rw [if_neg (by simp), wp_bind]
        refine ih hvar ho hnd.2 (fun p hp => hsub p (by simp [hp])) (fun p hp => hpos p (by simp [hp])) hm hdb hfit fun r m' h => ?_
        rw [wp_pure]
        refine hQ (r.1 + w, r.2.1, r.2.2) m' ⟨h.db, h.fits, h.less, fun o' ho' p hp hn => ?_, ?_, ?_, h.same⟩
        · simp only [List.map_cons, List.mem_cons, not_or] at hn
          exact h.keep o' ho' p hp hn.2
        · rw [hcost, hrest h, (hfit.val o ho _ hl).1 htt, h.cost]; simp; omega
        · have := h.total
          rw [hcost, (hfit.val o ho _ hl).1 htt, if_pos rfl]
          simp only
          omega
    · next htt =>
      refine ih hvar ho hnd.2 (fun p hp => hsub p (by simp [hp])) (fun p hp => hpos p (by simp [hp])) hm hdb hfit fun r m' h => ?_
      refine hQ r m' ⟨h.db, h.fits, h.less, fun o' ho' p hp hn => ?_, ?_, ?_, h.same⟩
      · simp only [List.map_cons, List.mem_cons, not_or] at hn
        exact h.keep o' ho' p hp hn.2
      · have : l.eval m = false := by
          have := (hfit.val o ho _ hl).not.1 htt
          simpa using this
        rw [hcost, hrest h, this, h.cost]; simp
      · have : l.eval m = false := by
          have := (hfit.val o ho _ hl).not.1 htt
          simpa using this
        rw [hcost, this, h.total]; simp

/-- The costs of one objective; other solutions may be found that have no higher value in any objective. -/
theorem wp_getCostTightL {k : Nat} {Q : Nat × Assignment → Slv P C → Prop} (wf : pb.WF) (orc : OracleOK env)
    (tok : TightOK env pb) (hio : IoInv env k s.io) (hi : DBInv pb A s) {oi : Nat} {o : Objective}
    (ho : pb.objs[oi]? = some o) {n : Nat} (hn : pb.n0 ≤ n) {m : Asg} (hm : s.k.ostate = .sat m)
    (hdb : cnfEval m s.k.db = true) (t : Bool)
    (hQ : ∀ m' s', Same s s' → s'.k.ostate = .sat m' → IoInv env k s'.io → cnfEval m' s'.k.db = true →
      (∀ o ∈ pb.objs, icost o m' ≤ icost o m) → (env.tighten = false → m' = m) →
      ((env.tighten && t) = true → s'.io.logger = s.io.logger.map (· ++ [.heurImprovement oi (icost o m) (icost o m')])) →
      Q (icost o m', Assignment.ofModel m' n) s')
    (hE : ∀ e s', Same s s' → IoStopQ env k e s' → E e s') :
    wp env (getCostTight oi (Assignment.ofModel m n) t) Q E s := by
  have hom := List.mem_of_getElem? ho
  have hnpos : 0 < n := by have := hi.encVar; omega
  have hvar : ∀ o ∈ s.k.objs, ∀ p ∈ o.iter, p.1.var < n := by
    rw [hi.objs]
    exact fun o ho p hp => Nat.lt_of_lt_of_le (wf.objs o ho p hp) hn
  have hcostOf : ∀ m', o.costOf (Assignment.ofModel m' n) = icost o m' := fun m' =>
    Objective.costOf_ofModel o m' n (hvar o (by rw [hi.objs]; exact hom))
  unfold getCostTight
  rw [wp_bind]
  show wp env (if (env.tighten && t) = true then _ else _) Q E s
  split
  · next hfeat =>
    simp only [Bool.and_eq_true] at hfeat
    obtain ⟨hnd, hpos⟩ := tok hfeat.1 o hom
    rw [wp_bind, wp_getS, wp_bind, hi.objs, ho, wp_unwrap_some, wp_bind]
    refine wp_tightenLoop orc hvar (by rw [hi.objs]; exact hom) o.iter hnd (fun p h => h) hpos hm hdb
      (SolFits.ofModel hvar m) fun r m' h => ?_
    have hsame : Same s { s with k := { s.k with ostate := .sat m' } } := ⟨rfl, rfl, rfl, rfl⟩
    have hread : wp env (rereadSol o r) (fun sol s' => sol = Assignment.ofModel m' n ∧
        s' = { s with k := { s.k with ostate := .sat m' } }) E { s with k := { s.k with ostate := .sat m' } } := by
      unfold rereadSol
      have hlen := h.fits.len
      split
      · rw [if_neg (by rw [List.isEmpty_iff]; intro h0; rw [h0] at hlen; simp at hlen; omega), wp_bind, wp_getS]
        dsimp only
        rw [wp_bind]
        refine wp_dbg ?_ ?_
        · rw [hlen, hcostOf, h.cost]; simp [icost]
        · rw [wp_pure, hlen]; exact ⟨rfl, rfl⟩
      · next h0 =>
        obtain ⟨rfl, h2⟩ := h.same (by omega)
        rw [wp_pure]
        exact ⟨h2, rfl⟩
    rw [wp_bind]
    refine wp_mono hread ?_ (fun _ _ h => h)
    rintro _ _ ⟨rfl, rfl⟩
    rw [wp_bind]
    have hp : ∀ a b, (LogEvent.heurImprovement oi a b).Plain := by intro _ _ _ h; cases h
    refine wp_logEvent' _ hio (fun l _ => (hp _ _).loggable l) ?_ (fun e s' h1 h2 => hE e s' (hsame.trans h1) h2)
    intro s' h1 hk hio' hlog
    rw [wp_pure, h.cost]
    refine hQ m' s' (hsame.trans h1) (by rw [hk]) hio' (by rw [hk]; exact h.db) (fun o' ho' => ?_) (fun h0 => ?_) (fun _ => ?_)
    · exact linear_mono fun p hp => h.less o' (by rw [hi.objs]; exact ho') p hp
    · rw [hfeat.1] at h0; cases h0
    · rw [hlog, h.total, h.cost]; rfl
  · next hfeat =>
    rw [wp_bind]
    unfold getCost
    rw [wp_bind, wp_getS, wp_bind, hi.objs, ho, wp_unwrap_some, wp_pure, wp_pure, hcostOf]
    exact hQ m s (Same.refl s) hm hio hdb (fun _ _ => Nat.le_refl _) (fun _ => rfl) (fun h => absurd h hfeat)

/-- As `wp_getCostTightL`, without the event that is logged. -/
theorem wp_getCostTight {k : Nat} {Q : Nat × Assignment → Slv P C → Prop} (wf : pb.WF) (orc : OracleOK env)
    (tok : TightOK env pb) (hio : IoInv env k s.io) (hi : DBInv pb A s) {oi : Nat} {o : Objective}
    (ho : pb.objs[oi]? = some o) {n : Nat} (hn : pb.n0 ≤ n) {m : Asg} (hm : s.k.ostate = .sat m)
    (hdb : cnfEval m s.k.db = true) (t : Bool)
    (hQ : ∀ m' s', Same s s' → s'.k.ostate = .sat m' → IoInv env k s'.io → cnfEval m' s'.k.db = true →
      (∀ o ∈ pb.objs, icost o m' ≤ icost o m) → (env.tighten = false → m' = m) → Q (icost o m', Assignment.ofModel m' n) s')
    (hE : ∀ e s', Same s s' → IoStopQ env k e s' → E e s') :
    wp env (getCostTight oi (Assignment.ofModel m n) t) Q E s :=
  wp_getCostTightL wf orc tok hio hi ho hn hm hdb t (fun m' s' h1 h2 h3 h4 h5 h6 _ => hQ m' s' h1 h2 h3 h4 h5 h6) hE

theorem wp_tightCosts {k : Nat} (wf : pb.WF) (orc : OracleOK env) (tok : TightOK env pb) {n : Nat} (hn : pb.n0 ≤ n) (t : Bool)
    (j : Nat) : ∀ {s : Slv P C} {E : Stop → Slv P C → Prop} {i : Nat} {Q : List Nat × Assignment → Slv P C → Prop} {m : Asg},
      IoInv env k s.io → DBInv pb A s → i + j ≤ pb.objs.length → s.k.ostate = .sat m → cnfEval m s.k.db = true →
    (∀ m' c s', Same s s' → s'.k.ostate = .sat m' → IoInv env k s'.io → cnfEval m' s'.k.db = true →
      (∀ o ∈ pb.objs, icost o m' ≤ icost o m) → (env.tighten = false → m' = m) → c.length = j →
      (∀ (a x : Nat) (o : Objective), c[a]? = some x → pb.objs[i + a]? = some o → icost o m' ≤ x ∧ x ≤ icost o m) →
      (j = 0 → m' = m) →
      (∀ (a x : Nat) (o : Objective), a + 1 = j → c[a]? = some x → pb.objs[i + a]? = some o → x = icost o m') →
      Q (c, Assignment.ofModel m' n) s') →
    (∀ e s', Same s s' → IoStopQ env k e s' → E e s') →
    wp env (tightCosts t j i (Assignment.ofModel m n)) Q E s := by
  induction j with
  | zero =>
    intro s E i Q m hio hi _ hm hdb hQ _
    unfold tightCosts
    rw [wp_pure]
    exact hQ m [] s (Same.refl s) hm hio hdb (fun _ _ => Nat.le_refl _) (fun _ => rfl) rfl (fun a x o h => by simp at h) (fun _ => rfl)
      (fun a x o h => by simp at h)
  | succ j ih =>
    intro s E i Q m hio hi hij hm hdb hQ hE
    unfold tightCosts
    have hlt : i < pb.objs.length := by omega
    have ho : pb.objs[i]? = some pb.objs[i] := List.getElem?_eq_getElem hlt
    rw [wp_bind]
    refine wp_getCostTight wf orc tok hio hi ho hn hm hdb t ?_ hE
    intro m1 s1 h1 hm1 hio1 hdb1 hle1 hsm1
    dsimp only
    rw [wp_bind]
    refine ih hio1 (hi.same h1) (by omega) hm1 hdb1 ?_ (fun e s' a b => hE e s' (h1.trans a) b)
    intro m2 c s2 h2 hm2 hio2 hdb2 hle2 hsm2 hlen hc h0 hlast
    rw [wp_pure]
    refine hQ m2 _ s2 (h1.trans h2) hm2 hio2 hdb2 (fun o ho => Nat.le_trans (hle2 o ho) (hle1 o ho))
      (fun h => (hsm2 h).trans (hsm1 h)) (by simp [hlen]) ?_ (by omega) ?_
    rotate_left
    · intro a x o ha hx ho'
      cases a with
      | zero =>
        simp only [List.getElem?_cons_zero, Option.some.injEq] at hx
        rw [Nat.add_zero, ho, Option.some.injEq] at ho'
        rw [← hx, ← ho', h0 (by omega)]
      | succ a =>
        exact hlast a x o (by omega) (by simpa using hx) (by rw [show i + 1 + a = i + (a + 1) by omega]; exact ho')
    intro a x o hx ho'
    cases a with
    | zero =>
      simp only [List.getElem?_cons_zero, Option.some.injEq] at hx
      rw [Nat.add_zero, ho, Option.some.injEq] at ho'
      subst hx ho'
      exact ⟨hle2 _ (List.mem_of_getElem? ho), hle1 _ (List.mem_of_getElem? ho)⟩
    | succ a =>
      have ho'' : pb.objs[i + 1 + a]? = some o := by rw [show i + 1 + a = i + (a + 1) by omega]; exact ho'
      have := hc a x o (by simpa using hx) ho''
      exact ⟨this.1, Nat.le_trans this.2 (hle1 o (List.mem_of_getElem? ho''))⟩

theorem costs_le_of {m m' : Asg} (h : ∀ o ∈ pb.objs, icost o m' ≤ icost o m) : VLe (pb.costs m') (pb.costs m) := by
  rw [vle_iff_getElem (by simp)]
  intro i x y hx hy
  simp only [Pb.costs, List.getElem?_map, Option.map_eq_some_iff] at hx hy
  obtain ⟨o, ho, rfl⟩ := hx
  obtain ⟨o', ho', rfl⟩ := hy
  rw [ho, Option.some.injEq] at ho'
  subst ho'
  exact h o (List.mem_of_getElem? ho)

/-- A solution, costs that are not below its own, and the model of the oracle, which costs at least as much. -/
theorem wp_getSolutionAndCosts {n : Nat} {Q : List Nat × Assignment → Slv P C → Prop} (wf : pb.WF) (orc : OracleOK env)
    (tok : TightOK env pb) (hn : n = pb.objs.length) (hio : IoInv env n s.io) (hi : DBInv pb A s) {m : Asg}
    (hm : s.k.ostate = .sat m) (hdb : cnfEval m s.k.db = true) (t : Bool)
    (hQ : ∀ m' c s', Same s s' → IoInv env n s'.io → cnfEval m' s.k.db = true → VLe (pb.costs m') c → VLe c (pb.costs m) →
      c.length = pb.objs.length → (∀ (a x : Nat) (o : Objective), a + 1 = pb.objs.length → c[a]? = some x →
        pb.objs[a]? = some o → x = icost o m') → Q (c, Assignment.ofModel m' s.k.vm.nextVar) s')
    (hE : ∀ e s', Same s s' → IoStopQ env n e s' → E e s') : wp env (getSolutionAndCosts t) Q E s := by
  unfold getSolutionAndCosts
  rw [wp_bind]
  have hpos : 0 < s.k.vm.nextVar := by have := hi.next; have := hi.encVar; omega
  refine wp_oracleSolution hm hpos ?_
  rw [wp_bind, wp_getS, wp_bind]
  refine wp_tightCosts wf orc tok hi.next t _ hio hi (by rw [hi.objs]; simp) hm hdb ?_ hE
  intro m' c s' h1 hm' hio' hdb' hle hsm hlen hc _ hlast
  rw [hi.objs] at hlen
  rw [wp_bind]
  refine wp_dbg (by simp [hio.base.1, hio'.base.1, hlen, hn]) ?_
  rw [wp_pure]
  refine hQ m' c s' h1 hio' (by rw [h1.db] at hdb'; exact hdb') ?_ ?_ hlen
    (fun a x o ha hx ho => hlast a x o (by rw [hi.objs]; exact ha) hx (by simpa using ho))
  · rw [vle_iff_getElem (by simp [hlen])]
    intro i x y hx hy
    simp only [Pb.costs, List.getElem?_map, Option.map_eq_some_iff] at hx
    obtain ⟨o, ho, rfl⟩ := hx
    exact (hc i y o hy (by simpa using ho)).1
  · rw [vle_iff_getElem (by simp [hlen])]
    intro i x y hx hy
    simp only [Pb.costs, List.getElem?_map, Option.map_eq_some_iff] at hy
    obtain ⟨o, ho, rfl⟩ := hy
    exact (hc i x o hx (by simpa using ho)).2

theorem LastIs.getSolutionAndCosts {c : List Nat} (h : LastIs s.io c) (t : Bool) :
    wp env (getSolutionAndCosts t) (fun _ s' => LastIs s'.io c) (fun _ _ => True) s := by
  have q : Quiet (P := P) (C := C) (fun s => LastIs s.io c) (fun _ _ => True) :=
    ⟨fun h _ _ h' => by rw [h]; exact h', fun _ _ _ => trivial⟩
  exact q.getSolutionAndCosts (fun i a b s h => h.logEvent _ (by intro _ _ h; cases h)) t s h

end Scuttle
