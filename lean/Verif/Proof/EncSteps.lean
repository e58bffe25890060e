import Verif.Proof.Steps
import Verif.Model.PMin

/-!
# Rules for extending encodings and for blocking clauses
-/

set_option linter.unusedSectionVars false

namespace Scuttle

open Spec

variable {P C : Type} [UbEnc P] [UbEnc C] [LawfulUbEnc P] [LawfulUbEnc C]
variable {env : Env} {E : Stop → Slv P C → Prop} {s : Slv P C} {pb : Pb} {A : Asg → Prop}

theorem XModel.same {s s' : Slv P C} (h : Same s s') {m} (hm : XModel s m) : XModel s' m :=
  ⟨by rw [h.db]; exact hm.db, by rw [h.encs, h.objs]; exact hm.exact⟩

theorem Same.step {s s' : Slv P C} (h : Same s s') : Step s s' := by
  refine ⟨⟨⟨h.front, h.opts, h.bcg, h.origCnf, h.fence⟩, .of_encs h.encs, by rw [h.vm], ⟨[], by rw [h.db]; simp⟩⟩, ?_⟩
  · intro m hm
    exact ⟨m, AgreeBelow.refl _ _, hm.same h⟩

theorem DBInv.same {s s' : Slv P C} (h : Same s s') (hi : DBInv pb A s) : DBInv pb A s' where
  objs := by rw [h.objs]; exact hi.objs
  len := by rw [h.encs]; exact hi.len
  next := by rw [h.vm]; exact hi.next
  origVar := by rw [h.vm]; exact hi.origVar
  encVar := by rw [h.vm]; exact hi.encVar
  dbVars := by rw [h.vm, h.db]; exact hi.dbVars
  below := by rw [h.encs, h.vm]; exact hi.below
  encFor := by rw [h.encs]; exact hi.encFor
  sound := by rw [h.db]; exact hi.sound
  encSound := by rw [h.db, h.encs]; exact hi.encSound
  ext := fun t h1 h2 => by
    obtain ⟨m, h3, h4⟩ := hi.ext t h1 h2
    exact ⟨m, h3, h4.same h⟩
  unlimited := by rw [h.lim]; exact hi.unlimited

/-- The allowed solutions only matter up to equivalence on solutions. -/
theorem DBInv.congr {A' : Asg → Prop} (hi : DBInv pb A s) (h : ∀ t, pb.Sol t → (A t ↔ A' t)) : DBInv pb A' s :=
  { hi with
    sound := fun m hm => ⟨(hi.sound m hm).1, (h m (hi.sound m hm).1).1 (hi.sound m hm).2⟩
    ext := fun t h1 h2 => hi.ext t h1 ((h t h1).2 h2) }

theorem DBInv.enc_exists (hi : DBInv pb A s) {i : Nat} {o : Objective} (ho : pb.objs[i]? = some o) :
    ∃ e, s.encs[i]? = some e := by
  have : i < s.encs.length := by
    rw [hi.len]
    by_contra h
    rw [List.getElem?_eq_none (by omega)] at ho
    simp at ho
  exact ⟨_, List.getElem?_eq_getElem this⟩

theorem wp_encAt {Q : ObjEnc P C → Slv P C → Prop} {i : Nat} {e : ObjEnc P C} (he : s.encs[i]? = some e) (hQ : Q e s) :
    wp env (encAt i) Q E s := by
  unfold encAt
  rw [wp_bind, wp_getS, he, wp_unwrap_some]
  exact hQ

theorem wp_extendEncoding' {Q : Unit → Slv P C → Prop} (wf : pb.WF) (hi : DBInv pb A s) (i lo hi' : Nat) {e : ObjEnc P C}
    (he : s.encs[i]? = some e)
    (hQ : ∀ s' e', Step s s' → (∀ j, i ≠ j → s'.encs[j]? = s.encs[j]?) → DBInv pb A s' → s'.io = s.io → s'.encs[i]? = some e' → e'.offset = e.offset →
      e'.isConstant = e.isConstant → e'.top = e.top →
      (∀ b, e.Ready b → e'.Ready b) → (∀ b, e.offset ≤ b → lo ≤ b → b < hi' → e'.Ready b) → Q () s') :
    wp env (extendEncoding i lo hi') Q E s := by
  unfold extendEncoding
  rw [wp_bind, wp_getS, wp_bind]
  refine wp_encAt he ?_
  rw [wp_modifyS]
  obtain ⟨r1, r2, r3, r4, r5, r6, r7, r8, r9, r10⟩ :=
    ObjEnc.encodeUbChange_spec e lo hi' s.k.vm.nextVar (hi.below i e he)
  have r11 := fun o m => ObjEnc.encodeUbChange_exact e lo hi' s.k.vm.nextVar (o := o) (m := m)
  generalize e.encodeUbChange lo hi' s.k.vm.nextVar = r at *
  obtain ⟨e', cs, n'⟩ := r
  simp only at *
  have hilen : i < s.encs.length := (List.getElem?_eq_some_iff.1 he).1
  have hget : ∀ j, (s.encs.set i e')[j]? = if i = j then some e' else s.encs[j]? := by
    intro j
    rw [List.getElem?_set]
    split
    · next h => subst h; simp
    · rfl
  have hxm : ∀ m, XModel s m → ∃ m', AgreeBelow s.k.vm.nextVar m m' ∧ cnfEval m' (s.k.db ++ cs) = true ∧
      ∀ (j : Nat) (f : ObjEnc P C) (o : Objective), (s.encs.set i e')[j]? = some f → s.k.objs[j]? = some o →
        f.Exact o m' := by
    intro m hm
    have hov : ∀ (j : Nat) (o : Objective), s.k.objs[j]? = some o → ∀ p ∈ o.iter, p.1.var < s.k.vm.nextVar := by
      intro j o hj p hp
      rw [hi.objs] at hj
      exact Nat.lt_of_lt_of_le (wf.objs o (List.mem_of_getElem? hj) p hp) hi.next
    have hother : ∀ m', AgreeBelow s.k.vm.nextVar m m' → ∀ (j : Nat) (f : ObjEnc P C) (o : Objective), i ≠ j →
        s.encs[j]? = some f → s.k.objs[j]? = some o → f.Exact o m' := by
      intro m' ha j f o _ hf ho
      exact ObjEnc.exact_agree (hi.below j f hf) ha (hov j o ho) (hm.exact j f o hf ho)
    cases hoi : s.k.objs[i]? with
    | none =>
      exfalso
      rw [hi.objs] at hoi
      rw [List.getElem?_eq_none_iff, ← hi.len] at hoi
      omega
    | some o =>
      obtain ⟨m', h1, h2, h3⟩ := r8 o m (hov i o hoi) (hm.exact i e o he hoi)
      refine ⟨m', h1, ?_, ?_⟩
      · rw [cnfEval_append]
        exact ⟨by rw [← cnfEval_agree h1 hi.dbVars]; exact hm.db, h2⟩
      · intro j f o' hf ho'
        rw [hget] at hf
        split at hf
        · next hij =>
          subst hij
          simp only [Option.some.injEq] at hf
          subst hf
          rw [hoi] at ho'
          simp only [Option.some.injEq] at ho'
          subst ho'
          exact h3
        · next hij => exact hother m' h1 j f o' hij hf ho'
  refine hQ _ e' ⟨⟨⟨rfl, rfl, rfl, rfl, rfl⟩, ⟨by simp, ?_, ?_⟩, r1, ⟨cs, rfl⟩⟩, ?_⟩
    (fun j hj => by simp only; rw [hget, if_neg hj]) ?_ rfl (by simp [hilen]) r4 r5 r6 r9.1 r10
  · intro j f hf
    simp only
    rw [hget]
    split
    · next hij =>
      subst hij
      rw [he] at hf
      simp only [Option.some.injEq] at hf
      subst hf
      exact ⟨e', rfl, r4, r5, r6, r9.1, r9.2⟩
    · exact ⟨f, hf, rfl, rfl, rfl, fun _ h => h, fun _ => rfl⟩
  · intro j f f' hf hf' o m hm
    simp only at hf'
    rw [hget] at hf'
    split at hf'
    · next hij =>
      subst hij
      rw [he] at hf
      simp only [Option.some.injEq] at hf hf'
      subst hf hf'
      exact r11 o m hm
    · rw [hf, Option.some.injEq] at hf'
      subst hf'
      exact hm
  · intro m hm
    obtain ⟨m', h1, h2, h3⟩ := hxm m hm
    exact ⟨m', h1, h2, h3⟩
  · exact {
      objs := hi.objs
      len := by simpa using hi.len
      next := Nat.le_trans hi.next r1
      origVar := hi.origVar
      encVar := hi.encVar
      dbVars := (hi.dbVars.mono r1).append r3
      below := by
        intro j f hf
        simp only at hf
        rw [hget] at hf
        split at hf
        · simp only [Option.some.injEq] at hf
          subst hf
          exact r2
        · exact ObjEnc.below_mono (hi.below j f hf) r1
      encFor := by
        intro j f o hf ho
        simp only at hf
        rw [hget] at hf
        split at hf
        · next hij =>
          subst hij
          simp only [Option.some.injEq] at hf
          subst hf
          have := hi.encFor i e o he ho
          exact ⟨by rw [r4]; exact this.offset, by rw [r5]; exact this.const⟩
        · exact hi.encFor j f o hf ho
      sound := by
        intro m hm
        exact hi.sound m ((cnfEval_append _ _ _).1 hm).1
      encSound := by
        intro m hm j f o hf ho
        obtain ⟨hm1, hm2⟩ := (cnfEval_append _ _ _).1 hm
        simp only at hf
        rw [hget] at hf
        split at hf
        · next hij =>
          subst hij
          simp only [Option.some.injEq] at hf
          subst hf
          exact r7 o m (hi.encSound m hm1 i e o he ho) hm2
        · exact hi.encSound m hm1 j f o hf ho
      ext := by
        intro t h1 h2
        obtain ⟨m, h3, h4⟩ := hi.ext t h1 h2
        obtain ⟨m', h5, h6, h7⟩ := hxm m h4
        exact ⟨m', h3.trans (h5.mono hi.next), h6, h7⟩
      unlimited := hi.unlimited }

theorem wp_extendEncoding {Q : Unit → Slv P C → Prop} (wf : pb.WF) (hi : DBInv pb A s) (i lo hi' : Nat) {e : ObjEnc P C}
    (he : s.encs[i]? = some e)
    (hQ : ∀ s' e', Step s s' → DBInv pb A s' → s'.io = s.io → s'.encs[i]? = some e' → e'.offset = e.offset →
      e'.isConstant = e.isConstant → e'.top = e.top →
      (∀ b, e.Ready b → e'.Ready b) → (∀ b, e.offset ≤ b → lo ≤ b → b < hi' → e'.Ready b) → Q () s') :
    wp env (extendEncoding i lo hi') Q E s :=
  wp_extendEncoding' wf hi i lo hi' he fun s' e' h1 _ => hQ s' e' h1

/-! ## Definitions with a fresh variable -/

/-- Assigns one variable. -/
def updAsg (m : Asg) (v : Nat) (b : Bool) : Asg := fun w => if w = v then b else m w

theorem updAsg_agree (m : Asg) (v : Nat) (b : Bool) : AgreeBelow v m (updAsg m v b) := by
  intro w hw; unfold updAsg; rw [if_neg (by omega)]

@[simp] theorem updAsg_self (m : Asg) (v : Nat) (b : Bool) : updAsg m v b v = b := by simp [updAsg]

theorem wp_freshVar {Q : Nat → Slv P C → Prop} 
    (hQ : ∀ s', s'.k = { s.k with vm := { s.k.vm with nextVar := s.k.vm.nextVar + 1 } } → s'.encs = s.encs →
      s'.front = s.front → s'.fence = s.fence → s'.io = s.io → Q s.k.vm.nextVar s') :
    wp env freshVar Q E s := by
  unfold wp freshVar
  exact hQ _ rfl rfl rfl rfl rfl

/-- Adding clauses about one fresh variable, given a value for it that satisfies them. -/
theorem addDef_step (wf : pb.WF) (hi : DBInv pb A s) {s' : Slv P C} (cs : List Clause)
    (hdb : s'.k.db = s.k.db ++ cs) (hvm : s'.k.vm = { s.k.vm with nextVar := s.k.vm.nextVar + 1 })
    (hobjs : s'.k.objs = s.k.objs) (hlim : s'.k.conflLimited = s.k.conflLimited)
    (henc : s'.encs = s.encs) (hframe : Frame s s')
    (hcs : VarsBelow (s.k.vm.nextVar + 1) cs)
    (b : Asg → Bool) (hb : ∀ m, XModel s m → cnfEval (updAsg m s.k.vm.nextVar (b m)) cs = true) :
    Step s s' ∧ DBInv pb A s' ∧ ∀ m, XModel s m → XModel s' (updAsg m s.k.vm.nextVar (b m)) := by
  have hx : ∀ m, XModel s m → XModel s' (updAsg m s.k.vm.nextVar (b m)) := by
    intro m hm
    have ha := updAsg_agree m s.k.vm.nextVar (b m)
    refine ⟨?_, ?_⟩
    · rw [hdb, cnfEval_append]
      exact ⟨by rw [← cnfEval_agree ha hi.dbVars]; exact hm.db, hb m hm⟩
    · rw [henc, hobjs]
      intro i e o he ho
      refine ObjEnc.exact_agree (hi.below i e he) ha ?_ (hm.exact i e o he ho)
      intro p hp
      rw [hi.objs] at ho
      exact Nat.lt_of_lt_of_le (wf.objs o (List.mem_of_getElem? ho) p hp) hi.next
  refine ⟨⟨⟨hframe, .of_encs henc, by rw [hvm]; simp, ⟨cs, hdb⟩⟩, ?_⟩, ?_, hx⟩
  · intro m hm
    exact ⟨_, updAsg_agree m s.k.vm.nextVar (b m), hx m hm⟩
  · exact {
      objs := by rw [hobjs]; exact hi.objs
      len := by rw [henc]; exact hi.len
      next := by rw [hvm]; exact Nat.le_succ_of_le hi.next
      origVar := by rw [hvm]; exact hi.origVar
      encVar := by rw [hvm]; exact hi.encVar
      dbVars := by
        rw [hvm, hdb]
        exact (hi.dbVars.mono (Nat.le_succ _)).append hcs
      below := by
        rw [henc, hvm]
        intro i e he
        exact ObjEnc.below_mono (hi.below i e he) (Nat.le_succ _)
      encFor := by rw [henc]; exact hi.encFor
      sound := by
        intro m hm
        rw [hdb, cnfEval_append] at hm
        exact hi.sound m hm.1
      encSound := by
        intro m hm
        rw [hdb, cnfEval_append] at hm
        rw [henc]
        exact hi.encSound m hm.1
      ext := by
        intro t h1 h2
        obtain ⟨m, h3, h4⟩ := hi.ext t h1 h2
        exact ⟨_, h3.trans ((updAsg_agree m s.k.vm.nextVar (b m)).mono hi.next), hx m h4⟩
      unlimited := by rw [hlim]; exact hi.unlimited }

theorem cnfEval_litImplCube (m : Asg) (a : Lit) (ls : List Lit) :
    cnfEval m (litImplCube a ls) = true ↔ (a.eval m = true → cubeEval m ls = true) := by
  unfold cnfEval litImplCube cubeEval
  simp only [List.all_map, List.all_eq_true, Function.comp]
  constructor
  · intro h ha l hl
    have := h l hl
    simp only [clauseEval, List.any_cons, List.any_nil, Lit.eval_not, ha] at this
    simpa using this
  · intro h l hl
    simp only [clauseEval, List.any_cons, List.any_nil, Lit.eval_not]
    cases ha : a.eval m with
    | false => simp
    | true => simp [h ha l hl]

/-! ## The clause that blocks dominated solutions -/

/-- Objective `i + j` is better than `cs[j]` for some `j`. -/
def Better (pb : Pb) (i : Nat) (cs : List Nat) (m : Asg) : Prop :=
  ∃ (j c : Nat) (o : Objective), cs[j]? = some c ∧ pb.objs[i + j]? = some o ∧ icost o m < c

theorem better_nil {i : Nat} {m : Asg} : ¬ Better pb i [] m := by
  rintro ⟨j, c, o, h, _⟩; simp at h

theorem better_cons {i c : Nat} {cs : List Nat} {m : Asg} :
    Better pb i (c :: cs) m ↔ (∃ o, pb.objs[i]? = some o ∧ icost o m < c) ∨ Better pb (i + 1) cs m := by
  constructor
  · rintro ⟨j, d, o, h1, h2, h3⟩
    cases j with
    | zero => simp only [List.getElem?_cons_zero, Option.some.injEq] at h1; subst h1; exact .inl ⟨o, h2, h3⟩
    | succ j => exact .inr ⟨j, d, o, by simpa using h1, by rw [show i + 1 + j = i + (j + 1) by omega]; exact h2, h3⟩
  · rintro (⟨o, h1, h2⟩ | ⟨j, d, o, h1, h2, h3⟩)
    · exact ⟨0, c, o, by simp, by simpa using h1, h2⟩
    · exact ⟨j + 1, d, o, by simpa using h1, by rw [show i + (j + 1) = i + 1 + j by omega]; exact h2, h3⟩

theorem better_agree (wf : pb.WF) {i : Nat} {cs : List Nat} {m m' : Asg} (h : AgreeBelow pb.n0 m m') :
    Better pb i cs m → Better pb i cs m' := by
  rintro ⟨j, c, o, h1, h2, h3⟩
  exact ⟨j, c, o, h1, h2, by rw [← Pb.icost_agree wf h (List.mem_of_getElem? h2)]; exact h3⟩

theorem not_vle_iff_better {cs : List Nat} (hl : cs.length = pb.objs.length) {m : Asg} :
    ¬ VLe cs (pb.costs m) ↔ Better pb 0 cs m := by
  rw [vle_iff_getElem (by simp [hl])]
  simp only [not_forall, Pb.costs, List.getElem?_map, Option.map_eq_some_iff]
  constructor
  · rintro ⟨i, x, y, h1, ⟨o, h2, rfl⟩, h3⟩
    exact ⟨i, x, o, h1, by simpa using h2, by omega⟩
  · rintro ⟨j, c, o, h1, h2, h3⟩
    exact ⟨j, c, icost o m, h1, ⟨o, by simpa using h2, rfl⟩, by omega⟩

theorem XModel.sol (hi : DBInv pb A s) {m} (hm : XModel s m) : pb.Sol m := (hi.sound m hm.db).1

theorem wp_domBlockLoop {Q : Clause → Slv P C → Prop} (wf : pb.WF) (t : Asg) (ht : pb.Sol t) (hA : A t)
    (cs : List Nat) (i : Nat) (cl : Clause) (hi : DBInv pb A s)
    (hcs : ∀ (j c : Nat), cs[j]? = some c → ∃ c', (pb.costs t)[i + j]? = some c' ∧ c ≤ c')
    (hcl : LitsBelow s.k.vm.nextVar cl)
    (hQ : ∀ cl' s', Step s s' → DBInv pb A s' → s'.io = s.io → LitsBelow s'.k.vm.nextVar cl' →
      (∀ m, cnfEval m s'.k.db = true → clauseEval m cl' = true → clauseEval m cl = true ∨ Better pb i cs m) →
      (∀ m, XModel s m → ∃ m', AgreeBelow s.k.vm.nextVar m m' ∧ XModel s' m' ∧
        (clauseEval m cl = true ∨ Better pb i cs m → clauseEval m' cl' = true)) → Q cl' s') :
    wp env (domBlockLoop i cs cl) Q E s := by
  induction cs generalizing i cl s with
  | nil =>
    unfold domBlockLoop
    rw [wp_pure]
    refine hQ cl s (Step.refl s) hi rfl hcl (fun m _ h => .inl h) (fun m hm => ⟨m, AgreeBelow.refl _ _, hm, ?_⟩)
    rintro (h | h)
    · exact h
    · exact absurd h better_nil
  | cons c cs ih =>
    have hcs0 : ∃ c', (pb.costs t)[i]? = some c' ∧ c ≤ c' := by simpa using hcs 0 c (by simp)
    have hcs' : ∀ (j d : Nat), cs[j]? = some d → ∃ c', (pb.costs t)[i + 1 + j]? = some c' ∧ d ≤ c' := by
      intro j d hd
      rw [show i + 1 + j = i + (j + 1) by omega]
      exact hcs (j + 1) d (by simpa using hd)
    obtain ⟨o, ho, hoc⟩ : ∃ o, pb.objs[i]? = some o ∧ c ≤ icost o t := by
      obtain ⟨c', h1, h2⟩ := hcs0
      simp only [Pb.costs, List.getElem?_map, Option.map_eq_some_iff] at h1
      obtain ⟨o, h1, rfl⟩ := h1
      exact ⟨o, h1, h2⟩
    obtain ⟨e, he⟩ := hi.enc_exists ho
    have hef := hi.encFor i e o he ho
    unfold domBlockLoop
    rw [wp_bind]
    refine wp_encAt he ?_
    -- the entry is skipped
    have hskip : (∀ m, pb.Sol m → ¬ icost o m < c) → wp env (domBlockLoop (i + 1) cs cl) Q E s := by
      intro hno
      refine ih (i + 1) cl hi hcs' hcl ?_
      intro cl' s' h1 h2 h3 h4 h5 h6
      refine hQ cl' s' h1 h2 h3 h4 (fun m hm hc => ?_) (fun m hm => ?_)
      · rcases h5 m hm hc with h | h
        · exact .inl h
        · exact .inr (better_cons.2 (.inr h))
      · obtain ⟨m', g1, g2, g3⟩ := h6 m hm
        refine ⟨m', g1, g2, fun h => g3 ?_⟩
        rcases h with h | h
        · exact .inl h
        · rcases better_cons.1 h with ⟨o', h7, h8⟩ | h
          · rw [ho] at h7
            simp only [Option.some.injEq] at h7
            subst h7
            exact absurd h8 (hno m (hm.sol hi))
          · exact .inr h
    by_cases h1 : c ≤ e.offset
    · rw [if_pos h1]
      refine hskip fun m hm => ?_
      have := hef.offset m hm
      omega
    rw [if_neg h1]
    by_cases h2 : e.isConstant = true
    · rw [if_pos h2]
      refine hskip fun m hm => ?_
      obtain ⟨K, hK⟩ := hef.const h2
      have := hK m hm
      have := hK t ht
      omega
    rw [if_neg h2, wp_bind]
    have h2' : e.isConstant = false := by simpa using h2
    refine wp_extendEncoding wf hi i (c - 1) c he ?_
    intro s1 e1 hs1 hi1 hio1 he1 hoff1 hcon1 htop1 _ hrdy1
    rw [wp_bind]
    refine wp_encAt he1 ?_
    obtain ⟨ls, hls, hlb, hsnd, hex, -, -⟩ := ObjEnc.enforceUb_spec e1 (c - 1) s1.k.vm.nextVar
      (hrdy1 (c - 1) (by omega) (by omega) (by omega)) (hi1.below i e1 he1)
    rw [wp_bind, hls, wp_orErr_some]
    -- the literals mean that the objective is improved
    have hsnd' : ∀ m, cnfEval m s1.k.db = true → cubeEval m ls = true → icost o m < c := by
      intro m hm hc
      have := hsnd o m (by rw [hcon1]; exact h2') (hi1.encSound m hm i e1 o he1 ho) hc
      omega
    have hex' : ∀ m, XModel s1 m → icost o m < c → cubeEval m ls = true := by
      intro m hm hc
      exact hex o m (hm.exact i e1 o he1 (by rw [hi1.objs]; exact ho)) (by omega)
    have hne : ls ≠ [] := by
      intro h0
      obtain ⟨m, hm1, hm2⟩ := hi1.ext t ht hA
      have := hsnd' m hm2.db (by rw [h0]; rfl)
      rw [← Pb.icost_agree wf hm1 (List.mem_of_getElem? ho)] at this
      omega
    have hcl1 : LitsBelow s1.k.vm.nextVar cl := hcl.mono hs1.next
    -- continuing with one literal `l` more in the clause
    have hcont : ∀ (s2 : Slv P C) (l : Lit), Step s1 s2 → DBInv pb A s2 → s2.io = s.io → l.var < s2.k.vm.nextVar →
        (∀ m, cnfEval m s2.k.db = true → l.eval m = true → icost o m < c) →
        (∀ m, XModel s1 m → ∃ m', AgreeBelow s1.k.vm.nextVar m m' ∧ XModel s2 m' ∧
          (icost o m < c → l.eval m' = true)) →
        wp env (domBlockLoop (i + 1) cs (cl ++ [l])) Q E s2 := by
      intro s2 l hs2 hi2 hio2 hl hl1 hl2
      refine ih (i + 1) (cl ++ [l]) hi2 hcs' ((hcl1.mono hs2.next).append (by
        intro x hx; simp only [List.mem_singleton] at hx; subst hx; exact hl)) ?_
      intro cl' s' g1 g2 g3 g4 g5 g6
      refine hQ cl' s' ((hs1.trans hs2).trans g1) g2 (g3.trans hio2) g4 (fun m hm hc => ?_) (fun m hm => ?_)
      · rcases g5 m hm hc with h | h
        · rw [clauseEval_append, clauseEval_singleton] at h
          rcases h with h | h
          · exact .inl h
          · exact .inr (better_cons.2 (.inl ⟨o, ho, hl1 m (g1.dbEval hm) h⟩))
        · exact .inr (better_cons.2 (.inr h))
      · obtain ⟨m1, a1, a2⟩ := hs1.ext m hm
        obtain ⟨m2, b1, b2, b3⟩ := hl2 m1 a2
        obtain ⟨m3, d1, d2, d3⟩ := g6 m2 b2
        have hag : AgreeBelow s.k.vm.nextVar m m2 := a1.trans (b1.mono hs1.next)
        refine ⟨m3, hag.trans (d1.mono (Nat.le_trans hs1.next hs2.next)), d2, fun h => d3 ?_⟩
        rcases h with h | h
        · exact .inl ((clauseEval_append _ _ _).2 (.inl (by rw [← clauseEval_agree hag hcl]; exact h)))
        · rcases better_cons.1 h with ⟨o', h7, h8⟩ | h
          · rw [ho] at h7
            simp only [Option.some.injEq] at h7
            subst h7
            refine .inl ((clauseEval_append _ _ _).2 (.inr ?_))
            rw [clauseEval_singleton]
            refine b3 ?_
            rw [← Pb.icost_agree wf (a1.mono hi.next) (List.mem_of_getElem? ho)]
            exact h8
          · exact .inr (better_agree wf (hag.mono hi.next) h)
    split
    · next l =>
      refine hcont s1 l (Step.refl _) hi1 hio1 (hlb l (by simp)) ?_ ?_
      · intro m hm hl
        exact hsnd' m hm (by rw [cubeEval_singleton]; exact hl)
      · intro m hm
        refine ⟨m, AgreeBelow.refl _ _, hm, fun h => ?_⟩
        have := hex' m hm h
        rwa [cubeEval_singleton] at this
    · rw [wp_bind]
      refine wp_dbg (by simpa using hne) ?_
      rw [wp_bind]
      refine wp_freshVar fun s2 hk2 hen2 hfr2 hfe2 hio2 => ?_
      rw [wp_bind]
      refine wp_addClauses _ fun s3 hk3 hen3 hfr3 hfe3 hio3 => ?_
      have hlt : ∀ l ∈ ls, l.var < s1.k.vm.nextVar := hlb
      obtain ⟨hs13, hi3, hx3⟩ := addDef_step (s := s1) (s' := s3) wf hi1
        (litImplCube (Lit.pos s1.k.vm.nextVar) ls)
        (by rw [hk3, hk2]) (by rw [hk3, hk2]) (by rw [hk3, hk2]) (by rw [hk3, hk2])
        (by rw [hen3, hen2]) ⟨by rw [hfr3, hfr2], by rw [hk3, hk2], by rw [hk3, hk2], by rw [hk3, hk2], by rw [hfe3, hfe2]⟩
        (by
          intro d hd l hl
          unfold litImplCube at hd
          obtain ⟨x, hx, rfl⟩ := List.mem_map.1 hd
          simp only [List.mem_cons, List.not_mem_nil, or_false] at hl
          rcases hl with rfl | rfl
          · simp [Lit.not, Lit.pos]
          · exact Nat.lt_succ_of_lt (hlt _ hx))
        (fun m => cubeEval m ls)
        (by
          intro m _
          rw [cnfEval_litImplCube]
          intro h
          simp only [Lit.eval_pos, updAsg_self] at h
          rw [← cubeEval_agree (updAsg_agree m _ _) hlb]
          exact h)
      refine hcont s3 (Lit.pos s1.k.vm.nextVar) hs13 hi3 (by rw [hio3, hio2, hio1]) ?_ ?_ ?_
      · have : s3.k.vm.nextVar = s1.k.vm.nextVar + 1 := by rw [hk3, hk2]
        rw [this]; simp [Lit.pos]
      · intro m hm hl
        refine hsnd' m (hs13.dbEval hm) ?_
        have : cnfEval m (litImplCube (Lit.pos s1.k.vm.nextVar) ls) = true := by
          have h' : s3.k.db = s1.k.db ++ litImplCube (Lit.pos s1.k.vm.nextVar) ls := by rw [hk3, hk2]
          rw [h', cnfEval_append] at hm
          exact hm.2
        exact (cnfEval_litImplCube _ _ _).1 this hl
      · intro m hm
        refine ⟨_, updAsg_agree m _ _, hx3 m hm, fun h => ?_⟩
        simp only [Lit.eval_pos, updAsg_self]
        exact hex' m hm h

/-- `dominated_block_clause` for costs that are at most those of a solution that is still allowed. -/
theorem wp_dominatedBlockClause {Q : Clause → Slv P C → Prop} (wf : pb.WF) (t : Asg) (ht : pb.Sol t) (hA : A t)
    {c : List Nat} (hct : VLe c (pb.costs t)) (hi : DBInv pb A s)
    (hQ : ∀ cl s', Step s s' → DBInv pb A s' → s'.io = s.io → LitsBelow s'.k.vm.nextVar cl →
      (∀ m, cnfEval m s'.k.db = true → clauseEval m cl = true → ¬ VLe c (pb.costs m)) →
      (∀ m, XModel s m → ∃ m', AgreeBelow s.k.vm.nextVar m m' ∧ XModel s' m' ∧
        (¬ VLe c (pb.costs m) → clauseEval m' cl = true)) → Q cl s') :
    wp env (dominatedBlockClause c) Q E s := by
  unfold dominatedBlockClause
  rw [wp_bind, wp_getS, wp_bind]
  have hlen : c.length = pb.objs.length := by rw [hct.length_eq]; simp
  refine wp_dbg (by simp [hi.len, hlen]) ?_
  refine wp_domBlockLoop wf t ht hA _ 0 [] hi ?_ (LitsBelow.nil _) ?_
  · intro j x hx
    have hj := (List.getElem?_eq_some_iff.1 hx).1
    have hj' : j < (pb.costs t).length := by rw [← hct.length_eq]; exact hj
    have hy : (pb.costs t)[j]? = some (pb.costs t)[j] := List.getElem?_eq_getElem hj'
    exact ⟨_, by rw [Nat.zero_add]; exact hy, (vle_iff_getElem hct.length_eq).1 hct j x _ hx hy⟩
  intro cl s' h1 h2 h3 h4 h5 h6
  refine hQ cl s' h1 h2 h3 h4 (fun m hm hc => ?_) (fun m hm => ?_)
  · rw [not_vle_iff_better hlen]
    rcases h5 m hm hc with h | h
    · simp [clauseEval] at h
    · exact h
  · obtain ⟨m', g1, g2, g3⟩ := h6 m hm
    refine ⟨m', g1, g2, fun h => g3 (.inr ?_)⟩
    rwa [not_vle_iff_better hlen] at h

end Scuttle
