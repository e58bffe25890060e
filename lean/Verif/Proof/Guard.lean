import Verif.Proof.EncSteps

/-!
# Rules for blocking with and without a switch, and for enforcing domination
-/

set_option linter.unusedSectionVars false

namespace Scuttle

open Spec

variable {P C : Type} [UbEnc P] [UbEnc C] [LawfulUbEnc P] [LawfulUbEnc C]
variable {env : Env} {E : Stop → Slv P C → Prop} {s : Slv P C} {pb : Pb} {A : Asg → Prop}

/-! ## Adding a clause -/

/-- The state after `add_clause`. -/
structure Added (c : Clause) (s s' : Slv P C) : Prop where
  k : s'.k = { s.k with db := s.k.db ++ [c], ostate := s'.k.ostate }
  encs : s'.encs = s.encs
  front : s'.front = s.front
  fence : s'.fence = s.fence
  io : s'.io = s.io

theorem wp_addClause' {Q : Unit → Slv P C → Prop} (c : Clause) (hQ : ∀ s', Added c s s' → Q () s') :
    wp env (addClause c) Q E s :=
  wp_addClause c fun s' h1 h2 h3 h4 h5 => hQ s' ⟨h1, h2, h3, h4, h5⟩

theorem Added.db {c : Clause} {s s' : Slv P C} (h : Added c s s') : s'.k.db = s.k.db ++ [c] := by rw [h.k]

theorem Added.grow {c : Clause} {s s' : Slv P C} (h : Added c s s') : Grow s s' where
  frame := ⟨h.front, by rw [h.k], by rw [h.k], by rw [h.k], h.fence⟩
  enc := .of_encs h.encs
  next := by rw [h.k]
  db := ⟨[c], h.db⟩

theorem Added.xmodel {c : Clause} {s s' : Slv P C} (h : Added c s s') {m} (hm : XModel s m)
    (hc : clauseEval m c = true) : XModel s' m :=
  ⟨by rw [h.db, cnfEval_append, cnfEval_singleton]; exact ⟨hm.db, hc⟩, by
    rw [h.encs, show s'.k.objs = s.k.objs by rw [h.k]]; exact hm.exact⟩

theorem Added.xmodel_of {c : Clause} {s s' : Slv P C} (h : Added c s s') {m} (hm : XModel s' m) : XModel s m :=
  ⟨h.grow.dbEval hm.db, by
    have := hm.exact
    rw [h.encs, show s'.k.objs = s.k.objs by rw [h.k]] at this; exact this⟩

/-- Adding a clause that means `B` for solutions. -/
theorem DBInv.addClause {c : Clause} {s s' : Slv P C} {B : Asg → Prop} (hi : DBInv pb A s) (h : Added c s s')
    (hc : LitsBelow s.k.vm.nextVar c)
    (hs : ∀ m, cnfEval m s.k.db = true → clauseEval m c = true → B m)
    (he : ∀ t, pb.Sol t → A t → B t → ∃ m, AgreeBelow pb.n0 t m ∧ XModel s m ∧ clauseEval m c = true) :
    DBInv pb (fun t => A t ∧ B t) s' where
  objs := by rw [h.k]; exact hi.objs
  len := by rw [h.encs]; exact hi.len
  next := by rw [h.k]; exact hi.next
  origVar := by rw [h.k]; exact hi.origVar
  encVar := by rw [h.k]; exact hi.encVar
  dbVars := by
    rw [h.k]
    exact hi.dbVars.append (by intro d hd; simp only [List.mem_singleton] at hd; subst hd; exact hc)
  below := by rw [h.encs, h.k]; exact hi.below
  encFor := by rw [h.encs]; exact hi.encFor
  sound := by
    intro m hm
    rw [h.db, cnfEval_append, cnfEval_singleton] at hm
    exact ⟨(hi.sound m hm.1).1, (hi.sound m hm.1).2, hs m hm.1 hm.2⟩
  encSound := by
    intro m hm
    rw [h.encs]
    exact hi.encSound m (h.grow.dbEval hm)
  ext := by
    rintro t h1 ⟨h2, h3⟩
    obtain ⟨m, g1, g2, g3⟩ := he t h1 h2 h3
    exact ⟨m, g1, h.xmodel g2 g3⟩
  unlimited := by rw [h.k]; exact hi.unlimited

/-! ## Guards -/

/-- The literal `g` switches on the restriction `B`. -/
structure Guard (pb : Pb) (A B : Asg → Prop) (s : Slv P C) (g : Lit) : Prop where
  var : g.var < s.k.vm.nextVar
  sound : ∀ m, cnfEval m s.k.db = true → g.eval m = true → B m
  ext : ∀ t, pb.Sol t → A t → B t → ∃ m, AgreeBelow pb.n0 t m ∧ XModel s m ∧ g.eval m = true

theorem Guard.step {B : Asg → Prop} {s s' : Slv P C} {g : Lit} (h : Guard pb A B s g) (hn : pb.n0 ≤ s.k.vm.nextVar)
    (hs : Step s s') : Guard pb A B s' g where
  var := Nat.lt_of_lt_of_le h.var hs.next
  sound := fun m hm hg => h.sound m (hs.dbEval hm) hg
  ext := by
    intro t h1 h2 h3
    obtain ⟨m, g1, g2, g3⟩ := h.ext t h1 h2 h3
    obtain ⟨m', g4, g5⟩ := hs.ext m g2
    exact ⟨m', g1.trans (g4.mono hn), g5, by rw [← Lit.eval_agree g4 h.var]; exact g3⟩

/-- A guard stays one if a clause over the variables of the problem is added. -/
theorem Guard.added {B B' : Asg → Prop} {s s' : Slv P C} {g : Lit} {c : Clause} (h : Guard pb A B s g)
    (ha : Added c s s') (hc : LitsBelow pb.n0 c) (hB : ∀ t, B' t → clauseEval t c = true) :
    Guard pb (fun t => A t ∧ B' t) B s' g where
  var := Nat.lt_of_lt_of_le h.var ha.grow.next
  sound := fun m hm hg => h.sound m (ha.grow.dbEval hm) hg
  ext := by
    rintro t h1 ⟨h2, h2'⟩ h3
    obtain ⟨m, g1, g2, g3⟩ := h.ext t h1 h2 h3
    exact ⟨m, g1, ha.xmodel g2 (by rw [← clauseEval_agree g1 hc]; exact hB t h2'), g3⟩

theorem Guard.congr {A' B : Asg → Prop} {g : Lit} (h : Guard pb A B s g) (hA : ∀ t, pb.Sol t → A' t → A t) :
    Guard pb A' B s g := { h with ext := fun t h1 h2 h3 => h.ext t h1 (hA t h1 h2) h3 }

/-- A guard that may be missing. -/
def GuardO (pb : Pb) (A B : Asg → Prop) (s : Slv P C) : Option Lit → Prop
  | some g => Guard pb A B s g
  | none => ∀ t, B t

theorem GuardO.step {B : Asg → Prop} {s s' : Slv P C} {g : Option Lit} (h : GuardO pb A B s g)
    (hn : pb.n0 ≤ s.k.vm.nextVar) (hs : Step s s') : GuardO pb A B s' g := by
  cases g with
  | none => exact h
  | some g => exact Guard.step h hn hs

theorem wp_commitBlock {Q : Unit → Slv P C → Prop} {B : Asg → Prop} {g : Option Lit} (hi : DBInv pb A s)
    (hg : GuardO pb A B s g)
    (hQ : ∀ s', Grow s s' → DBInv pb (fun t => A t ∧ B t) s' → s'.io = s.io → Q () s') :
    wp env (commitBlock g) Q E s := by
  unfold commitBlock
  cases g with
  | none =>
    rw [wp_pure]
    refine hQ s (Grow.refl s) (hi.congr fun t _ => ?_) rfl
    exact ⟨fun h => ⟨h, hg t⟩, fun h => h.1⟩
  | some g =>
    simp only
    refine wp_addClause' _ fun s' h => hQ s' h.grow (hi.addClause h ?_ ?_ ?_) h.io
    · intro l hl
      simp only [List.mem_singleton] at hl
      subst hl
      exact hg.var
    · intro m h1 h2
      exact hg.sound m h1 (by rwa [clauseEval_singleton] at h2)
    · intro t h1 h2 h3
      obtain ⟨m, g1, g2, g3⟩ := hg.ext t h1 h2 h3
      exact ⟨m, g1, g2, by rw [clauseEval_singleton]; exact g3⟩

theorem wp_tmpBlockDominated {n : Nat} {Q : Lit → Slv P C → Prop} (wf : pb.WF) (hn : n = pb.objs.length)
    (hio : IoInv env n s.io) (t : Asg) (ht : pb.Sol t) (hA : A t) {c : List Nat}
    (hct : VLe c (pb.costs t)) (hi : DBInv pb A s)
    (hQ : ∀ g s', Step s s' → DBInv pb A s' → s'.io = s.io →
      Guard pb A (fun m => ¬ VLe c (pb.costs m)) s' g → Q g s') :
    wp env (tmpBlockDominated c) Q E s := by
  unfold tmpBlockDominated
  rw [wp_bind, wp_getS, wp_bind]
  refine wp_dbg (by simp [hio.base.1, hn, hct.length_eq]) ?_
  rw [wp_bind]
  refine wp_dominatedBlockClause wf t ht hA hct hi fun cl s1 hs1 hi1 hio1 hlb hsnd hex => ?_
  rw [wp_bind]
  refine wp_freshVar fun s2 hk2 hen2 hfr2 hfe2 hio2 => ?_
  rw [wp_bind]
  refine wp_addClause _ fun s3 hk3 hen3 hfr3 hfe3 hio3 => ?_
  rw [wp_pure]
  have hv : LitsBelow (s1.k.vm.nextVar + 1) (cl ++ [Lit.pos s1.k.vm.nextVar]) := by
    refine (hlb.mono (Nat.le_succ _)).append ?_
    intro l hl
    simp only [List.mem_singleton] at hl
    subst hl
    simp [Lit.pos]
  have hdb : s3.k.db = s1.k.db ++ [cl ++ [Lit.pos s1.k.vm.nextVar]] := by rw [hk3, hk2]
  have hdef := fun (b : Asg → Bool) hb => addDef_step (s := s1) (s' := s3) wf hi1
    [cl ++ [Lit.pos s1.k.vm.nextVar]] hdb (by rw [hk3, hk2]) (by rw [hk3, hk2]) (by rw [hk3, hk2])
    (by rw [hen3, hen2])
    ⟨by rw [hfr3, hfr2], by rw [hk3, hk2], by rw [hk3, hk2], by rw [hk3, hk2], by rw [hfe3, hfe2]⟩
    (by intro d hd; simp only [List.mem_singleton] at hd; subst hd; exact hv) b hb
  obtain ⟨hs13, hi3, _⟩ := hdef (fun _ => true) (by
    intro m _
    rw [cnfEval_singleton, clauseEval_append, clauseEval_singleton]
    right
    simp)
  refine hQ _ s3 (hs1.trans hs13) hi3 (by rw [hio3, hio2, hio1]) ⟨?_, ?_, ?_⟩
  · have : s3.k.vm.nextVar = s1.k.vm.nextVar + 1 := by rw [hk3, hk2]
    rw [this]; simp [Lit.pos, Lit.not]
  · intro m hm hg
    rw [hdb, cnfEval_append, cnfEval_singleton, clauseEval_append, clauseEval_singleton] at hm
    rw [Lit.eval_not] at hg
    rcases hm with ⟨h1, h2 | h2⟩
    · exact hsnd m h1 h2
    · rw [h2] at hg; simp at hg
  · intro t' h1 h2 h3
    obtain ⟨m0, a1, a2⟩ := hi.ext t' h1 h2
    obtain ⟨m, b1, b2, b3⟩ := hex m0 a2
    have hcl := b3 (by rw [← Pb.costs_agree wf a1]; exact h3)
    obtain ⟨_, _, hx⟩ := hdef (fun m => !clauseEval m cl) (by
      intro m _
      rw [cnfEval_singleton, clauseEval_append, clauseEval_singleton]
      rw [← clauseEval_agree (updAsg_agree m _ _) hlb]
      cases h : clauseEval m cl <;> simp [h])
    refine ⟨_, ?_, hx m b2, ?_⟩
    · exact a1.trans ((b1.mono hi.next).trans ((updAsg_agree m _ _).mono hi1.next))
    · rw [Lit.eval_not, Lit.eval_pos, updAsg_self, hcl]; rfl

/-! ## Enforcing domination -/

/-- Assuming the literals means that costs are at most `c`. -/
structure DomLits (pb : Pb) (s : Slv P C) (c : List Nat) (as : List Lit) : Prop where
  below : LitsBelow s.k.vm.nextVar as
  sound : ∀ m, cnfEval m s.k.db = true → cubeEval m as = true → VLe (pb.costs m) c
  exact : ∀ m, XModel s m → VLe (pb.costs m) c → cubeEval m as = true

theorem DomLits.added {s s' : Slv P C} {c as cl} (h : DomLits pb s c as) (ha : Added cl s s') : DomLits pb s' c as :=
  ⟨h.below.mono ha.grow.next, fun m hm => h.sound m (ha.grow.dbEval hm), fun m hm => h.exact m (ha.xmodel_of hm)⟩

theorem DomLits.same {s s' : Slv P C} {c as} (h : DomLits pb s c as) (ha : Same s s') : DomLits pb s' c as :=
  ⟨by rw [ha.vm]; exact h.below, by rw [ha.db]; exact h.sound, fun m hm => h.exact m
    ⟨by rw [← ha.db]; exact hm.db, by rw [← ha.encs, ← ha.objs]; exact hm.exact⟩⟩

/-- Bounds in range are ready in the encodings from index `i` on. -/
def ReadyFrom (s : Slv P C) (i : Nat) (cs : List Nat) : Prop :=
  ∀ (j c : Nat) (e : ObjEnc P C), cs[j]? = some c → s.encs[i + j]? = some e → e.Ready c

theorem wp_enforceDomEncode {Q : Unit → Slv P C → Prop} (wf : pb.WF) (t : Asg) (ht : pb.Sol t)
    (cs : List Nat) (i : Nat) (hi : DBInv pb A s)
    (hcs : ∀ (j c : Nat), cs[j]? = some c → ∃ c', (pb.costs t)[i + j]? = some c' ∧ c' ≤ c)
    (hQ : ∀ s', Step s s' → DBInv pb A s' → s'.io = s.io → ReadyFrom s' i cs → Q () s') :
    wp env (enforceDomEncode i cs) Q E s := by
  induction cs generalizing i s with
  | nil =>
    unfold enforceDomEncode
    rw [wp_pure]
    refine hQ s (Step.refl s) hi rfl ?_
    intro j c e h
    simp at h
  | cons c cs ih =>
    have hcs0 : ∃ c', (pb.costs t)[i]? = some c' ∧ c' ≤ c := by simpa using hcs 0 c (by simp)
    have hcs' : ∀ (j d : Nat), cs[j]? = some d → ∃ c', (pb.costs t)[i + 1 + j]? = some c' ∧ c' ≤ d := by
      intro j d hd
      rw [show i + 1 + j = i + (j + 1) by omega]
      exact hcs (j + 1) d (by simpa using hd)
    obtain ⟨o, ho, hoc⟩ : ∃ o, pb.objs[i]? = some o ∧ icost o t ≤ c := by
      obtain ⟨c', h1, h2⟩ := hcs0
      simp only [Pb.costs, List.getElem?_map, Option.map_eq_some_iff] at h1
      obtain ⟨o, h1, rfl⟩ := h1
      exact ⟨o, h1, h2⟩
    obtain ⟨e, he⟩ := hi.enc_exists ho
    have hoff := (hi.encFor i e o he ho).offset t ht
    unfold enforceDomEncode
    rw [wp_bind]
    refine wp_extendEncoding wf hi i c (c + 1) he ?_
    intro s1 e1 hs1 hi1 hio1 he1 _ _ _ _ hrdy
    refine ih (i + 1) hi1 hcs' ?_
    intro s2 hs2 hi2 hio2 hrd2
    refine hQ s2 (hs1.trans hs2) hi2 (hio2.trans hio1) ?_
    intro j d e' hd he'
    cases j with
    | zero =>
      simp only [List.getElem?_cons_zero, Option.some.injEq] at hd
      subst hd
      obtain ⟨e'', g1, _, _, _, g5, -⟩ := hs2.enc.enc i e1 he1
      rw [Nat.add_zero, g1] at he'
      simp only [Option.some.injEq] at he'
      subst he'
      exact g5 c (hrdy c (by omega) (Nat.le_refl _) (Nat.lt_succ_self _))
    | succ j =>
      exact hrd2 j d e' (by simpa using hd) (by rw [show i + 1 + j = i + (j + 1) by omega]; exact he')

/-- The literals mean that the objectives from index `i` on are at most `cs`. -/
theorem wp_enforceDomLits {Q : List Lit → Slv P C → Prop} (t : Asg) (ht : pb.Sol t)
    (cs : List Nat) (i : Nat) (hi : DBInv pb A s)
    (hcs : ∀ (j c : Nat), cs[j]? = some c → ∃ c', (pb.costs t)[i + j]? = some c' ∧ c' ≤ c) (hr : ReadyFrom s i cs)
    (hQ : ∀ as, LitsBelow s.k.vm.nextVar as →
      (∀ m, cnfEval m s.k.db = true → cubeEval m as = true →
        ∀ (j c : Nat) (o : Objective), cs[j]? = some c → pb.objs[i + j]? = some o → icost o m ≤ c) →
      (∀ m, XModel s m →
        (∀ (j c : Nat) (o : Objective), cs[j]? = some c → pb.objs[i + j]? = some o → icost o m ≤ c) →
        cubeEval m as = true) → Q as s) :
    wp env (enforceDomLits i cs) Q E s := by
  induction cs generalizing i Q with
  | nil =>
    unfold enforceDomLits
    rw [wp_pure]
    exact hQ [] (LitsBelow.nil _) (fun m _ _ j c o h => by simp at h) (fun m _ _ => rfl)
  | cons c cs ih =>
    have hcs0 : ∃ c', (pb.costs t)[i]? = some c' ∧ c' ≤ c := by simpa using hcs 0 c (by simp)
    have hcs' : ∀ (j d : Nat), cs[j]? = some d → ∃ c', (pb.costs t)[i + 1 + j]? = some c' ∧ c' ≤ d := by
      intro j d hd
      rw [show i + 1 + j = i + (j + 1) by omega]
      exact hcs (j + 1) d (by simpa using hd)
    have hr' : ReadyFrom s (i + 1) cs := by
      intro j d e hd he
      exact hr (j + 1) d e (by simpa using hd) (by rw [show i + (j + 1) = i + 1 + j by omega]; exact he)
    obtain ⟨o, ho, hoc⟩ : ∃ o, pb.objs[i]? = some o ∧ icost o t ≤ c := by
      obtain ⟨c', h1, h2⟩ := hcs0
      simp only [Pb.costs, List.getElem?_map, Option.map_eq_some_iff] at h1
      obtain ⟨o, h1, rfl⟩ := h1
      exact ⟨o, h1, h2⟩
    obtain ⟨e, he⟩ := hi.enc_exists ho
    unfold enforceDomLits
    rw [wp_bind]
    refine wp_encAt he ?_
    obtain ⟨ls, hls, hlb, hsnd, hex, -, -⟩ := ObjEnc.enforceUb_spec e c s.k.vm.nextVar
      (hr 0 c e (by simp) he) (hi.below i e he)
    rw [wp_bind, hls, wp_unwrap_some, wp_bind]
    refine ih (i + 1) hcs' hr' ?_
    intro as h1 h2 h3
    rw [wp_pure]
    refine hQ (ls ++ as) (hlb.append h1) ?_ ?_
    · intro m hm hc j d o' hd ho'
      rw [cubeEval_append] at hc
      cases j with
      | zero =>
        simp only [List.getElem?_cons_zero, Option.some.injEq] at hd
        subst hd
        rw [Nat.add_zero, ho] at ho'
        simp only [Option.some.injEq] at ho'
        subst ho'
        cases hcon : e.isConstant with
        | false => exact hsnd o m hcon (hi.encSound m hm i e o he ho) hc.1
        | true =>
          obtain ⟨K, hK⟩ := (hi.encFor i e o he ho).const hcon
          have h4 := hK t ht
          have h5 := hK m (hi.sound m hm).1
          omega
      | succ j =>
        exact h2 m hm hc.2 j d o' (by simpa using hd) (by rw [show i + 1 + j = i + (j + 1) by omega]; exact ho')
    · intro m hm hall
      rw [cubeEval_append]
      refine ⟨hex o m (hm.exact i e o he (by rw [hi.objs]; exact ho)) (hall 0 c o (by simp) ho), h3 m hm ?_⟩
      intro j d o' hd ho'
      exact hall (j + 1) d o' (by simpa using hd) (by rw [show i + (j + 1) = i + 1 + j by omega]; exact ho')

theorem wp_enforceDominating {n : Nat} {Q : List Lit → Slv P C → Prop} (wf : pb.WF) (hn : n = pb.objs.length)
    (hio : IoInv env n s.io) (t : Asg) (ht : pb.Sol t) {c : List Nat} (hct : VLe (pb.costs t) c) (hi : DBInv pb A s)
    (hQ : ∀ as s', Step s s' → DBInv pb A s' → s'.io = s.io → DomLits pb s' c as → Q as s') :
    wp env (enforceDominating c) Q E s := by
  unfold enforceDominating
  rw [wp_bind, wp_getS, wp_bind]
  have hlen : c.length = pb.objs.length := by rw [← hct.length_eq]; simp
  have hcs : ∀ (j x : Nat), c[j]? = some x → ∃ c', (pb.costs t)[0 + j]? = some c' ∧ c' ≤ x := by
    intro j x hx
    have hj := (List.getElem?_eq_some_iff.1 hx).1
    have hj' : j < (pb.costs t).length := by rw [hct.length_eq]; exact hj
    have hy : (pb.costs t)[j]? = some (pb.costs t)[j] := List.getElem?_eq_getElem hj'
    exact ⟨_, by rw [Nat.zero_add]; exact hy, (vle_iff_getElem hct.length_eq).1 hct j _ x hy hx⟩
  refine wp_dbg (by simp [hio.base.1, hn, hlen]) ?_
  rw [wp_bind]
  refine wp_enforceDomEncode wf t ht _ 0 hi hcs fun s1 hs1 hi1 hio1 hr1 => ?_
  refine wp_enforceDomLits t ht _ 0 hi1 hcs hr1 fun as h1 h2 h3 => ?_
  refine hQ as s1 hs1 hi1 hio1 ⟨h1, ?_, ?_⟩
  · intro m hm hc
    rw [vle_iff_getElem (by simp [hlen])]
    intro i x y hx hy
    simp only [Pb.costs, List.getElem?_map, Option.map_eq_some_iff] at hx
    obtain ⟨o, ho, rfl⟩ := hx
    exact h2 m hm hc i y o hy (by simpa using ho)
  · intro m hm hle
    refine h3 m hm ?_
    intro j c o hc ho
    rw [vle_iff_getElem (by simp [hlen])] at hle
    refine hle j _ _ ?_ hc
    rw [Nat.zero_add] at ho
    simp [Pb.costs, List.getElem?_map, ho]

/-! ## Solutions and their costs -/

theorem costsOf_ofModel (hi : DBInv pb A s) (wf : pb.WF) {n : Nat} (hn : pb.n0 ≤ n) (m : Asg) :
    s.k.costsOf (Assignment.ofModel m n) = pb.costs m := by
  unfold Kern.costsOf Pb.costs icost
  rw [hi.objs]
  refine List.map_congr_left fun o ho => ?_
  exact Objective.costOf_ofModel o m n fun p hp => Nat.lt_of_lt_of_le (wf.objs o ho p hp) hn

/-- A core over the assumptions is falsified by a model of the assumptions. -/
theorem core_false {m : Asg} {as core : List Lit} (hc : ∀ l ∈ core, l.not ∈ as) (hm : cubeEval m as = true) :
    clauseEval m core = false := by
  unfold clauseEval
  rw [List.any_eq_false]
  intro l hl
  have : (l.not).eval m = true := by
    unfold cubeEval at hm
    exact List.all_eq_true.1 hm _ (hc l hl)
  rw [Lit.eval_not] at this
  simpa using this

end Scuttle
