import Verif.SpecPrepro
import Verif.Proof.Reform
import Verif.Props.Objective
import Verif.Props.VarManager

/-!
# Lemmas on the processing of instances before solving
-/

namespace Scuttle

open Spec

/-! ## Objectives -/

theorem linear_unit (m : Asg) (w : Nat) (ls : List (Lit × Nat)) (h : ∀ q ∈ ls, q.2 = w) :
    w * linear m ((ls.map Prod.fst).map fun l => (l, 1)) = linear m ls := by
  induction ls with
  | nil => simp [linear]
  | cons q ls ih =>
    obtain ⟨l', w'⟩ := q
    have h1 := h (l', w') (by simp)
    simp only at h1
    subst h1
    simp only [List.map_cons, linear, Nat.mul_add]
    rw [ih (fun q hq' => h q (by simp [hq']))]
    split <;> simp

/-- Value and literals of the objective built from literals without repetition. -/
theorem objective_new_spec (ts : List (Lit × Nat)) (off : Int) (idx : Nat) (hd : (ts.map Prod.fst).Nodup) :
    (∀ s, objValue (Objective.new ts off idx) s = off + linear s ts) ∧
    objLits (Objective.new ts off idx) = ts.map Prod.fst ∧ (Objective.new ts off idx).offset = off ∧
    (Objective.new ts off idx).idx = idx := by
  cases ts with
  | nil => simp [Objective.new, objValue, objLits, linear, Objective.offset, Objective.idx]
  | cons p ts =>
    obtain ⟨l, w⟩ := p
    simp only [Objective.new]
    split
    · simp only [mapCollect_nodup _ hd, objValue, objLits, Objective.offset, Objective.idx, implies_true, and_self]
    · next hw =>
      refine ⟨fun s => ?_, rfl, rfl, rfl⟩
      simp only [objValue]
      have : ∀ q ∈ (l, w) :: ts, q.2 = w := by
        intro q hq
        by_contra hne
        apply hw
        rw [List.any_eq_true]
        exact ⟨q, hq, by simpa using hne⟩
      rw [← linear_unit s w _ this]; push_cast; rfl

/-- The common weight of an objective that was built is one of the weights. -/
theorem objective_new_weights {ts : List (Lit × Nat)} (hd : (ts.map Prod.fst).Nodup) (off : Int) (idx : Nat) :
    (∀ off' lits i lb, Objective.new ts off idx = .weighted off' lits i lb → lits = ts) ∧
    (∀ off' w lits i lb, Objective.new ts off idx = .unweighted off' w lits i lb → ts ≠ [] ∧ ∀ q ∈ ts, q.2 = w) := by
  cases ts with
  | nil => simp [Objective.new]
  | cons q ts =>
    obtain ⟨l, w⟩ := q
    simp only [Objective.new]
    split
    · next hw =>
      rw [mapCollect_nodup _ hd]
      refine ⟨fun off' lits i lb h => ?_, by simp⟩
      simp only [Objective.weighted.injEq] at h
      exact h.2.1.symm
    · next hw =>
      refine ⟨by simp, ?_⟩
      intro off' w' lits i lb h
      simp only [Objective.unweighted.injEq] at h
      obtain ⟨-, rfl, -⟩ := h
      refine ⟨by simp, fun q hq => ?_⟩
      by_contra hne
      apply hw
      rw [List.any_eq_true]
      exact ⟨q, hq, by simpa using hne⟩

theorem objective_new_unit {ts : List (Lit × Nat)} {off off' : Int} {idx idx' w lb : Nat} {lits : List Lit}
    (h : Objective.new ts off idx = .unweighted off' w lits idx' lb) : ∃ l, (l, w) ∈ ts := by
  cases ts with
  | nil => simp [Objective.new] at h
  | cons p ts =>
    obtain ⟨l, w'⟩ := p
    simp only [Objective.new] at h
    split at h
    · simp at h
    · simp only [Objective.unweighted.injEq] at h
      exact ⟨l, by simp [h.2.1]⟩

/-! ## Relaxed soft clauses -/

/-- Literals that stand for a violated soft clause, given the literals introduced so far. -/
def LitFor (blits : List (Clause × Lit)) (cl : Clause) (l : Lit) : Prop :=
  (∃ l', cl = [l'] ∧ l = l'.not) ∨ ((∀ l', cl ≠ [l']) ∧ (cl, l) ∈ blits)

/-- What `process_objective` keeps. -/
structure RInv (p : Parsed) (st : Relax) : Prop where
  orig : st.vm.maxOrigVar = p.vm.maxOrigVar
  next : p.vm.maxOrigVar < st.vm.nextVar
  cons : st.constrs = p.constraints ++ st.blits.map fun q => PbCon.ofClause (q.1 ++ [q.2])
  keys : ∀ q ∈ st.blits, ∀ l ∈ q.1, l.var ≤ p.vm.maxOrigVar
  blit : ∀ q ∈ st.blits, q.2.neg = false ∧ p.vm.maxOrigVar < q.2.var ∧ q.2.var < st.vm.nextVar
  inj : ∀ q ∈ st.blits, ∀ q' ∈ st.blits, q.2 = q'.2 → q = q'

theorem RInv.init {p : Parsed} (h : ParsedOK p) : RInv p ⟨p.constraints, [], p.vm⟩ :=
  ⟨rfl, by simp [h.vm], by simp, by simp, by simp, by simp⟩

theorem LitFor.mono {b b' : List (Clause × Lit)} {cl : Clause} {l : Lit} (h : LitFor b cl l) (hb : b ⊆ b') :
    LitFor b' cl l := by
  rcases h with h | h
  · exact .inl h
  · exact .inr ⟨h.1, hb h.2⟩

theorem relaxSoft_spec {p : Parsed} {debug : Bool} {cl : Clause} {w : Nat} {st st' : Relax} {t : Lit × Nat}
    (h : RInv p st) (hv : ∀ l ∈ cl, l.var ≤ p.vm.maxOrigVar) (he : relaxSoft debug cl w st = some (t, st')) :
    RInv p st' ∧ st.blits ⊆ st'.blits ∧ t.2 = w ∧ LitFor st'.blits cl t.1 := by
  unfold relaxSoft at he
  split at he
  · simp at he
  · split at he
    · simp only [Option.some.injEq, Prod.mk.injEq] at he
      obtain ⟨rfl, rfl⟩ := he
      exact ⟨h, fun _ h => h, rfl, .inl ⟨_, rfl, rfl⟩⟩
    · next hne =>
      split at he
      · next b hb =>
        simp only [Option.some.injEq, Prod.mk.injEq] at he
        obtain ⟨rfl, rfl⟩ := he
        exact ⟨h, fun _ h => h, rfl, .inr ⟨fun l' e => hne l' e, mapGet_mem hb⟩⟩
      · next hb =>
        simp only [VarManager.newVar, Option.some.injEq, Prod.mk.injEq] at he
        obtain ⟨rfl, rfl⟩ := he
        have hnew : mapInsert cl (Lit.pos st.vm.nextVar) st.blits = st.blits ++ [(cl, Lit.pos st.vm.nextVar)] := by
          apply mapInsert_new
          exact mapGet_none.1 hb
        simp only [hnew]
        refine ⟨⟨h.orig, ?_, ?_, ?_, ?_, ?_⟩, ?_, by simp, .inr ⟨fun l' e => hne l' e, by simp⟩⟩
        · have := h.next; simp only; omega
        · simp [h.cons]
        · simp only [List.mem_append, List.mem_singleton]
          rintro q (hq | rfl)
          · exact h.keys q hq
          · exact hv
        · simp only [List.mem_append, List.mem_singleton]
          rintro q (hq | rfl)
          · have := h.blit q hq; exact ⟨this.1, this.2.1, by omega⟩
          · exact ⟨rfl, h.next, by simp [Lit.pos]⟩
        · simp only [List.mem_append, List.mem_singleton]
          rintro q (hq | rfl) q' (hq' | rfl) he
          · exact h.inj q hq q' hq' he
          · have := h.blit q hq; rw [he] at this; simp [Lit.pos] at this
          · have := h.blit q' hq'; rw [← he] at this; simp [Lit.pos] at this
          · rfl
        · intro q hq; simp [hq]

theorem relaxSofts_spec {p : Parsed} {debug : Bool} {softs : List (Clause × Nat)} {st st' : Relax}
    {ts : List (Lit × Nat)} (h : RInv p st) (hv : ∀ q ∈ softs, ∀ l ∈ q.1, l.var ≤ p.vm.maxOrigVar)
    (he : relaxSofts debug softs st = some (ts, st')) :
    RInv p st' ∧ st.blits ⊆ st'.blits ∧
      List.Forall₂ (fun q t => t.2 = q.2 ∧ LitFor st'.blits q.1 t.1) softs ts := by
  induction softs generalizing st ts with
  | nil =>
    simp only [relaxSofts, Option.some.injEq, Prod.mk.injEq] at he
    obtain ⟨rfl, rfl⟩ := he
    exact ⟨h, fun _ h => h, .nil⟩
  | cons q softs ih =>
    obtain ⟨cl, w⟩ := q
    simp only [relaxSofts] at he
    split at he
    · simp at he
    · next t st1 h1 =>
      split at he
      · simp at he
      · next ts' st2 h2 =>
        simp only [Option.some.injEq, Prod.mk.injEq] at he
        obtain ⟨rfl, rfl⟩ := he
        obtain ⟨a1, a2, a3, a4⟩ := relaxSoft_spec h (hv (cl, w) (by simp)) h1
        obtain ⟨b1, b2, b3⟩ := ih a1 (fun q hq => hv q (by simp [hq])) h2
        exact ⟨b1, fun _ hq => b2 (a2 hq), .cons ⟨a3, a4.mono b2⟩ b3⟩

/-- The objective `o'` comes from the soft clauses of `o`. -/
def ObjFor (blits : List (Clause × Lit)) (o : SoftObj) (o' : Objective) : Prop :=
  ∃ ts idx, o' = Objective.new ts o.offset idx ∧
    List.Forall₂ (fun q t => t.2 = q.2 ∧ LitFor blits q.1 t.1) o.softs ts

theorem ObjFor.mono {b b' : List (Clause × Lit)} {o : SoftObj} {o' : Objective} (h : ObjFor b o o') (hb : b ⊆ b') :
    ObjFor b' o o' := by
  obtain ⟨ts, idx, he, h⟩ := h
  exact ⟨ts, idx, he, h.imp fun _ _ h => ⟨h.1, h.2.mono hb⟩⟩

theorem processObjectives_spec {p : Parsed} {debug : Bool} {os : List SoftObj} {i : Nat} {st st' : Relax}
    {os' : List Objective} (h : RInv p st) (hv : ∀ o ∈ os, ∀ q ∈ o.softs, ∀ l ∈ q.1, l.var ≤ p.vm.maxOrigVar)
    (he : processObjectives debug os i st = some (os', st')) :
    RInv p st' ∧ st.blits ⊆ st'.blits ∧ List.Forall₂ (ObjFor st'.blits) os os' := by
  induction os generalizing st os' i with
  | nil =>
    simp only [processObjectives, Option.some.injEq, Prod.mk.injEq] at he
    obtain ⟨rfl, rfl⟩ := he
    exact ⟨h, fun _ h => h, .nil⟩
  | cons o os ih =>
    simp only [processObjectives] at he
    split at he
    · simp at he
    · next o1 st1 h1 =>
      split at he
      · simp at he
      · next os1 st2 h2 =>
        simp only [Option.some.injEq, Prod.mk.injEq] at he
        obtain ⟨rfl, rfl⟩ := he
        simp only [processObjective] at h1
        split at h1
        · simp at h1
        · next ts st1' h3 =>
          simp only [Option.some.injEq, Prod.mk.injEq] at h1
          obtain ⟨rfl, rfl⟩ := h1
          obtain ⟨a1, a2, a3⟩ := relaxSofts_spec h (hv o (by simp)) h3
          obtain ⟨b1, b2, b3⟩ := ih a1 (fun o ho => hv o (by simp [ho])) h2
          exact ⟨b1, fun _ hq => b2 (a2 hq), .cons (ObjFor.mono ⟨ts, i, rfl, a3⟩ b2) b3⟩

/-! ### It does not fail -/

theorem relaxSofts_some {debug : Bool} {softs : List (Clause × Nat)} (st : Relax)
    (h : debug = true → ∀ q ∈ softs, q.1 ≠ []) : (relaxSofts debug softs st).isSome = true := by
  induction softs generalizing st with
  | nil => rfl
  | cons q softs ih =>
    obtain ⟨cl, w⟩ := q
    simp only [relaxSofts]
    have h1 : (relaxSoft debug cl w st).isSome = true := by
      unfold relaxSoft
      split
      · next hd =>
        simp only [Bool.and_eq_true, List.isEmpty_iff] at hd
        exact absurd hd.2 (h hd.1 (cl, w) (by simp))
      · split
        · rfl
        · split <;> rfl
    obtain ⟨r, hr⟩ := Option.isSome_iff_exists.1 h1
    rw [hr]
    simp only
    have h2 := ih r.2 (fun hd q hq => h hd q (by simp [hq]))
    obtain ⟨r', hr'⟩ := Option.isSome_iff_exists.1 h2
    rw [hr']
    rfl

theorem processObjectives_some {debug : Bool} {os : List SoftObj} (i : Nat) (st : Relax)
    (h : debug = true → ∀ o ∈ os, ∀ q ∈ o.softs, q.1 ≠ []) : (processObjectives debug os i st).isSome = true := by
  induction os generalizing i st with
  | nil => rfl
  | cons o os ih =>
    simp only [processObjectives, processObjective]
    obtain ⟨r, hr⟩ := Option.isSome_iff_exists.1
      (relaxSofts_some (softs := o.softs) st (fun hd => h hd o (by simp)))
    rw [hr]
    simp only
    obtain ⟨r', hr'⟩ := Option.isSome_iff_exists.1 (ih (i + 1) r.2 (fun hd o ho => h hd o (by simp [ho])))
    rw [hr']
    rfl

/-! ## Encoding the constraints -/

theorem pbHolds_agree {s t : Asg} {c : PbCon} {n : Nat} (h : ∀ v, v < n → t v = s v)
    (hc : ∀ q ∈ c.terms, q.1.var < n) : PbHolds t c ↔ PbHolds s c := by
  have : pbSum t c.terms = pbSum s c.terms := by
    generalize c.terms = ts at hc
    induction ts with
    | nil => rfl
    | cons q ts ih =>
      obtain ⟨l, w⟩ := q
      have h1 := h l.var (hc (l, w) (by simp))
      simp only [pbSum, LitTrue, h1, ih (fun q hq => hc q (by simp [hq]))]
  unfold PbHolds
  rw [this]

theorem satisfied_agree {s t : Asg} {cl : Clause} {n : Nat} (h : ∀ v, v < n → t v = s v)
    (hc : ∀ l ∈ cl, l.var < n) (hs : ∃ l ∈ cl, LitTrue s l) : ∃ l ∈ cl, LitTrue t l := by
  obtain ⟨l, hl, hs⟩ := hs
  exact ⟨l, hl, by unfold LitTrue at *; rw [h _ (hc l hl), hs]⟩

theorem encodeConstraints_spec {enc : PbCon → Nat → List Clause × Nat} (g : GoodPbEncoding enc) (cs : List PbCon)
    (n : Nat) (hv : ∀ c ∈ cs, ∀ q ∈ c.terms, q.1.var < n) :
    n ≤ (encodeConstraints enc cs n).2 ∧
    (∀ cl ∈ (encodeConstraints enc cs n).1, ∀ l ∈ cl, l.var < (encodeConstraints enc cs n).2) ∧
    (∀ s, (∀ cl ∈ (encodeConstraints enc cs n).1, ∃ l ∈ cl, LitTrue s l) → ∀ c ∈ cs, PbHolds s c) ∧
    (∀ s, (∀ c ∈ cs, PbHolds s c) → ∃ t : Asg, (∀ v, v < n → t v = s v) ∧
      ∀ cl ∈ (encodeConstraints enc cs n).1, ∃ l ∈ cl, LitTrue t l) := by
  induction cs generalizing n with
  | nil => exact ⟨le_refl _, by simp [encodeConstraints], by simp, fun s _ => ⟨s, by simp, by simp [encodeConstraints]⟩⟩
  | cons c cs ih =>
    have hc := hv c (by simp)
    have m := g.mono c n
    obtain ⟨i1, i2, i3, i4⟩ := ih (enc c n).2
      (fun c' hc' q hq => lt_of_lt_of_le (hv c' (by simp [hc']) q hq) m)
    simp only [encodeConstraints]
    refine ⟨m.trans i1, ?_, ?_, ?_⟩
    · intro cl hcl l hl
      rcases List.mem_append.1 hcl with h | h
      · exact lt_of_lt_of_le (g.vars c n hc cl h l hl) i1
      · exact i2 cl h l hl
    · intro s hs c' hc'
      rcases List.mem_cons.1 hc' with rfl | h
      · exact g.sound c' n hc s fun cl hcl => hs cl (by simp [hcl])
      · exact i3 s (fun cl hcl => hs cl (by simp [hcl])) c' h
    · intro s hs
      obtain ⟨t, t1, t2⟩ := g.complete c n hc s (hs c (by simp))
      obtain ⟨u, u1, u2⟩ := i4 t (fun c' hc' =>
        (pbHolds_agree t1 (hv c' (by simp [hc']))).2 (hs c' (by simp [hc'])))
      refine ⟨u, fun v hv => (u1 v (by omega)).trans (t1 v hv), ?_⟩
      intro cl hcl
      rcases List.mem_append.1 hcl with h | h
      · exact satisfied_agree u1 (g.vars c n hc cl h) (t2 cl h)
      · exact u2 cl h

/-! ## Meaning of the relaxation -/

theorem pbSum_ofClause (s : Asg) (cl : Clause) : (1 : Int) ≤ pbSum s (cl.map fun l => (l, 1)) ↔ ∃ l ∈ cl, LitTrue s l := by
  have hnn : ∀ cl : Clause, (0 : Int) ≤ pbSum s (cl.map fun l => (l, 1)) := by
    intro cl
    induction cl with
    | nil => simp [pbSum]
    | cons l cl ih => simp only [List.map_cons, pbSum]; split <;> omega
  induction cl with
  | nil => simp [pbSum]
  | cons l cl ih =>
    simp only [List.map_cons, pbSum, List.mem_cons, exists_eq_or_imp, ← ih]
    have := hnn cl
    split
    · next h => simp only [h, true_or, iff_true]; omega
    · next h => simp [h]

theorem pbHolds_ofClause (s : Asg) (cl : Clause) : PbHolds s (PbCon.ofClause cl) ↔ ∃ l ∈ cl, LitTrue s l :=
  pbSum_ofClause s cl

theorem Lit.not_true_iff (s : Asg) (l : Lit) : LitTrue s l.not ↔ ¬ LitTrue s l := by
  unfold LitTrue Lit.not; cases s l.var <;> cases l.neg <;> simp

theorem softCost_le {s : Asg} {b : List (Clause × Lit)} {softs : List (Clause × Nat)} {ts : List (Lit × Nat)}
    (h : List.Forall₂ (fun q t => t.2 = q.2 ∧ LitFor b q.1 t.1) softs ts)
    (hs : ∀ q ∈ b, ∃ l ∈ q.1 ++ [q.2], LitTrue s l) : softCost s softs ≤ linear s ts := by
  induction h with
  | nil => simp [softCost]
  | @cons q t softs ts hq _ ih =>
    obtain ⟨cl, w⟩ := q
    obtain ⟨l, w'⟩ := t
    obtain ⟨hw, hl⟩ := hq
    simp only at hw hl
    subst hw
    simp only [softCost, linear]
    have : (if ∃ l ∈ cl, LitTrue s l then 0 else w') ≤ (if LitTrue s l then w' else 0) := by
      split
      · omega
      · next hno =>
        have : LitTrue s l := by
          rcases hl with ⟨l', rfl, rfl⟩ | ⟨_, hm⟩
          · rw [Lit.not_true_iff]; simpa using hno
          · obtain ⟨l', hl', ht⟩ := hs _ hm
            simp only [List.mem_append, List.mem_singleton] at hl'
            rcases hl' with h | rfl
            · exact absurd ⟨l', h, ht⟩ hno
            · exact ht
        simp [this]
    omega

theorem linear_le_softs (s : Asg) {b : List (Clause × Lit)} {softs : List (Clause × Nat)} {ts : List (Lit × Nat)}
    (h : List.Forall₂ (fun q t => t.2 = q.2 ∧ LitFor b q.1 t.1) softs ts) :
    linear s ts ≤ (softs.map Prod.snd).sum := by
  induction h with
  | nil => simp [linear]
  | @cons q t qs ts hq _ ih =>
    obtain ⟨l, w⟩ := t
    have := hq.1
    simp only at this
    simp only [linear, List.map_cons, List.sum_cons, ← this]
    split <;> omega

/-- The assignment that sets relaxation literals only if needed. -/
def relaxAsg (p : Parsed) (b : List (Clause × Lit)) (s : Asg) : Asg := fun v =>
  if v ≤ p.vm.maxOrigVar then s v else b.any fun q => q.2.var == v && decide (¬ ∃ l ∈ q.1, LitTrue s l)

theorem relaxAsg_orig (p : Parsed) (b : List (Clause × Lit)) (s : Asg) (v : Nat) (h : v < p.vm.maxOrigVar + 1) :
    relaxAsg p b s v = s v := by
  unfold relaxAsg; rw [if_pos (by omega)]

theorem clauseTrue_agree {s t : Asg} {cl : Clause} {n : Nat} (h : ∀ v, v < n → t v = s v)
    (hc : ∀ l ∈ cl, l.var < n) : (∃ l ∈ cl, LitTrue t l) ↔ ∃ l ∈ cl, LitTrue s l :=
  ⟨satisfied_agree (fun v hv => (h v hv).symm) hc, satisfied_agree h hc⟩

theorem relaxAsg_blit {p : Parsed} {st : Relax} (h : RInv p st) (s : Asg) {q : Clause × Lit} (hq : q ∈ st.blits) :
    LitTrue (relaxAsg p st.blits s) q.2 ↔ ¬ ∃ l ∈ q.1, LitTrue s l := by
  obtain ⟨h1, h2, -⟩ := h.blit q hq
  unfold LitTrue relaxAsg
  rw [h1, if_neg (by omega)]
  simp only [Bool.not_false, List.any_eq_true, Bool.and_eq_true, beq_iff_eq, decide_eq_true_eq]
  constructor
  · rintro ⟨q', hq', hv, hn⟩
    have : q' = q := h.inj q' hq' q hq (by
      have := h.blit q' hq'
      obtain ⟨_, v, n⟩ := q'
      obtain ⟨_, v', n'⟩ := q
      simp_all)
    subst this; exact hn
  · intro hn; exact ⟨q, hq, rfl, hn⟩

theorem softCost_eq {p : Parsed} {st : Relax} (h : RInv p st) (s : Asg) {t : Asg} {n : Nat}
    (hn : st.vm.nextVar ≤ n) (ht : ∀ v, v < n → t v = relaxAsg p st.blits s v)
    {softs : List (Clause × Nat)} {ts : List (Lit × Nat)}
    (hv : ∀ q ∈ softs, ∀ l ∈ q.1, l.var ≤ p.vm.maxOrigVar)
    (hf : List.Forall₂ (fun q t => t.2 = q.2 ∧ LitFor st.blits q.1 t.1) softs ts) :
    linear t ts = softCost s softs := by
  have hnx := h.next
  induction hf with
  | nil => simp [softCost, linear]
  | @cons q t' softs ts hq _ ih =>
    obtain ⟨cl, w⟩ := q
    obtain ⟨l, w'⟩ := t'
    obtain ⟨hw, hl⟩ := hq
    simp only at hw hl
    subst hw
    simp only [softCost, linear, ih (fun q hq => hv q (by simp [hq]))]
    have key : LitTrue t l ↔ ¬ ∃ l ∈ cl, LitTrue s l := by
      rcases hl with ⟨l', rfl, rfl⟩ | ⟨_, hm⟩
      · have hlv : l'.var ≤ p.vm.maxOrigVar := hv ([l'], w') (by simp) l' (by simp)
        rw [Lit.not_true_iff]
        simp only [List.mem_singleton, exists_eq_left]
        unfold LitTrue
        rw [ht _ (by omega), relaxAsg_orig _ _ _ _ (by omega)]
      · rw [← relaxAsg_blit h s hm]
        unfold LitTrue
        rw [ht _ (by have := (h.blit _ hm).2.2; simp only at this; omega)]
    by_cases hc : ∃ l ∈ cl, LitTrue s l
    · simp only [key, hc, not_true_eq_false, if_false, if_true]
    · simp only [key, hc, not_false_eq_true, if_false, if_true]

theorem litFor_nodup {p : Parsed} {st : Relax} (h : RInv p st) {softs : List (Clause × Nat)} {ts : List (Lit × Nat)}
    (hv : ∀ q ∈ softs, ∀ l ∈ q.1, l.var ≤ p.vm.maxOrigVar) (hd : (softs.map Prod.fst).Nodup)
    (hf : List.Forall₂ (fun q t => t.2 = q.2 ∧ LitFor st.blits q.1 t.1) softs ts) : (ts.map Prod.fst).Nodup := by
  induction hf with
  | nil => simp
  | @cons q t softs ts hq hf ih =>
    simp only [List.map_cons, List.nodup_cons] at hd ⊢
    refine ⟨?_, ih (fun q hq => hv q (by simp [hq])) hd.2⟩
    intro hm
    apply hd.1
    obtain ⟨t', ht', he⟩ := List.mem_map.1 hm
    obtain ⟨q', hq', -, hl'⟩ : ∃ q' ∈ softs, t'.2 = q'.2 ∧ LitFor st.blits q'.1 t'.1 := by
      clear ih hd hm hv
      induction hf with
      | nil => simp at ht'
      | @cons a b as bs hab _ ih2 =>
        rcases List.mem_cons.1 ht' with rfl | h'
        · exact ⟨a, by simp, hab⟩
        · obtain ⟨q', hq', hh⟩ := ih2 h'
          exact ⟨q', by simp [hq'], hh⟩
    rw [List.mem_map]
    refine ⟨q', hq', ?_⟩
    have hl := hq.2
    rw [he] at hl'
    rcases hl with ⟨l1, e1, e2⟩ | ⟨hn, hm1⟩ <;> rcases hl' with ⟨l1', e1', e2'⟩ | ⟨hn', hm1'⟩
    · rw [e1, e1']
      have : l1.not = l1'.not := by rw [← e2, ← e2']
      have : l1 = l1' := by
        cases l1; cases l1'; simp_all [Lit.not]
      rw [this]
    · exfalso
      have := (h.blit _ hm1').2.1
      have h2 := hv q (by simp) l1 (by simp [e1])
      simp only [e2, Lit.not] at this
      omega
    · exfalso
      have := (h.blit _ hm1).2.1
      have h2 := hv q' (by simp [hq']) l1' (by simp [e1'])
      simp only [e2', Lit.not] at this
      omega
    · have := h.inj _ hm1' _ hm1 rfl
      exact (Prod.mk.inj this).1

end Scuttle
