import Verif.Proof.OllLog

/-!
# Proof logging of core-guided search (C38)
-/

namespace Scuttle

open Spec

set_option linter.unusedSectionVars false

variable {T : TotView} {ord : (AnyVar → Bool) → (AnyVar → Bool) → Prop}

/-- Literals over different variables can all be true. -/
theorem assign_all {ls : List Lit} (h : (ls.map Lit.var).Nodup) : ∃ ρ : AnyVar → Bool, ∀ l ∈ ls, (toAxm l).val ρ = 1 := by
  refine ⟨fun v => match v with
    | .solver x => decide ((⟨x, false⟩ : Lit) ∈ ls)
    | _ => false, fun l hl => ?_⟩
  rw [axmVal]
  rcases l with ⟨x, n⟩
  cases n with
  | false => simp [LitTrue, solverAsg, hl]
  | true =>
    have : (⟨x, false⟩ : Lit) ∉ ls := fun hx => by
      have := List.inj_on_of_nodup_map h hx hl rfl
      cases this
    simp [LitTrue, solverAsg, this]

/-- For every totalizer and every number of outputs in use: the line of `coreguided.rs:516-520` turns the constraint of a
core with outputs up to `n` into the one with outputs up to `n + 1`. -/
theorem core_extended {c d : LbCon AnyVar} {root n : Nat} (hn : 1 ≤ n) (hc : LbCon.Same c (coreCon T root n))
    (hd : OnlyIfDef d (leafSum T root) (n + 1) (toAxm (T.out root (n + 1))))
    (hv : ((T.leafs root ++ outs T root 2 n).map Lit.var).Nodup) {db : ConDb AnyVar} {i j : Nat} (hi : db.get i = some c)
    (hj : db.get j = some d) :
    ∃ c', (extendOps (.id (.abs i)) n j).eval db = some c' ∧ LbCon.Same c' (coreCon T root (n + 1)) := by
  refine ⟨((c.mul n).add d).div (n + 1), ?_, extend_same hn hc hd hv⟩
  simp only [extendOps, Ops.eval, ConDb.find_abs, hi, hj, Option.map_some, Option.bind_eq_bind, Option.bind_some]
  rfl

/-- The constraint of a core is what a solution pays for it: the number of true leafs is one more than the number of
true outputs, if the outputs are right. -/
theorem coreCon_exact {root : Nat} {ρ : AnyVar → Bool} (hlen : (T.leafs root).length = T.len root) (hpos : 1 ≤ T.len root)
    (ho : ∀ v, 2 ≤ v → v ≤ T.len root → ((toAxm (T.out root v)).val ρ = 1 ↔ v ≤ leafSum T root ρ))
    (h1 : 1 ≤ leafSum T root ρ) : (coreCon T root (T.len root)).slack ρ = 0 :=
  coreCon_zero hlen hpos ho h1

/-- The state of the search after a run from the start. -/
structure Spec.OllRun (T : TotView) (ord : (AnyVar → Bool) → (AnyVar → Bool) → Prop) (obj : Objective) (proof : Pf AnyVar)
    (events : List OllEvent) (st : OllLog) : Prop where
  keys : (obj.iter.map Prod.fst).Nodup
  allowed : OllAllowedAll T ord events (OllLog.start obj proof)
  run : (OllLog.start obj proof).run T events = some st
  ends : OllEnd T st

theorem ollStart {obj : Objective} {proof : Pf AnyVar} (hk : (obj.iter.map Prod.fst).Nodup) :
    OllInv T obj (OllLog.start obj proof) (fun _ => 0) :=
    ⟨hk, List.nodup_nil, fun _ hp => (by cases hp), List.nodup_nil, List.nodup_nil, fun _ hp => (by cases hp),
      fun _ hp => (by cases hp), fun _ hp => (by cases hp), fun _ hp => (by cases hp), fun ρ => (by
        simp [OllLog.start, tracked, trackSum, objSum]), fun _ hp => (by cases hp), fun _ hp => (by cases hp)⟩

/-- For every objective and every sequence of cores, reformulations of cores and lines of others: all lines that the
core-guided search writes are accepted, and the last one is the reformulation of the objective. The objective is the sum of
the inactive literals, of the outputs that are not in use yet, of the offset, and of what this constraint leaves. If no line
is written then the objective is this sum. -/
theorem oll_reformulation {obj : Objective} {proof : Pf AnyVar} {events : List OllEvent} {st st' : OllLog} {id : Option Nat}
    (hT : TotContract T) (h : OllRun T ord obj proof events st) (hf : logFinal T st = some (id, st')) :
    WritesPf ord proof st'.proof ∧
      match id with
      | some id => ∃ c, st'.proof.db.get id = some c ∧ LbCon.Same c (reformCon obj T st')
      | none => ∀ ρ, (reformCon obj T st').slack ρ = 0 := by
  obtain ⟨g1, g2⟩ := ollRun_spec hT (ollStart h.keys) h.allowed h.run
  obtain ⟨g3, _, _, _, g4⟩ := logFinal_spec (ord := ord) hT g1 h.ends hf
  exact ⟨g2.trans g3, g4⟩

/-- So the proof contains the lower bound that was found: in every solution of the constraints in the proof, the objective
is at least the offset. -/
theorem oll_bound_logged {obj : Objective} {proof : Pf AnyVar} {events : List OllEvent} {st st' : OllLog} {id : Option Nat}
    (hT : TotContract T) (h : OllRun T ord obj proof events st) (hf : logFinal T st = some (id, st')) {ρ : AnyVar → Bool}
    (hρ : ∀ c ∈ live st'.proof.db, c.Holds ρ) : st'.offset + linear (solverAsg ρ) st'.inactives ≤ objSum obj ρ := by
  have h1 := (oll_reformulation hT h hf).2
  have hnn : (0 : Int) ≤ restSum T st'.refs ρ := by
    unfold restSum
    generalize st'.refs = rs
    induction rs with
    | nil => simp
    | cons p rs ih =>
      rw [List.map_cons, List.sum_cons]
      have := Int.mul_nonneg (Int.natCast_nonneg p.2.totWeight)
        (valSum_nonneg (outs T p.2.root (p.2.oidx + 2) (T.len p.2.root - (p.2.oidx + 1))) ρ)
      omega
  have h2 : 0 ≤ (reformCon obj T st').slack ρ := by
    cases id with
    | none => rw [h1 ρ]
    | some i =>
      obtain ⟨c, hc, hs⟩ := h1
      have := (LbCon.holds_iff _ _).1 (hρ c (mem_live_of_get hc))
      rw [← hs ρ]; exact this
  rw [slack_reformCon] at h2
  omega

/-- And the reformulation loses nothing: in every solution of the constraints in the proof before the last lines, with the
outputs of the totalizers right, the objective is the sum of the offset, of the inactive literals and of the outputs that
are not in use yet. -/
theorem oll_reformulation_exact {obj : Objective} {proof : Pf AnyVar} {events : List OllEvent} {st st' : OllLog}
    {id : Option Nat} (hT : TotContract T) (h : OllRun T ord obj proof events st) (hf : logFinal T st = some (id, st'))
    {ρ : AnyVar → Bool} (hρ : ∀ c ∈ live st.proof.db, c.Holds ρ) (ho : OutputsRight T ρ) :
    (reformCon obj T st').slack ρ = 0 := by
  obtain ⟨g1, _⟩ := ollRun_spec hT (ollStart h.keys) h.allowed h.run
  obtain ⟨_, g3, _⟩ := logFinal_spec (ord := ord) hT g1 h.ends hf
  rw [g3]
  exact reform_zero g1 h.ends.1 hρ ho

/-! ## Core exhaustion -/

/-- What `exhaust_core` has at hand: the `if` definitions of the outputs from a value on and, up to the last one, a core
that holds if the output is true. -/
def Spec.ExhaustInput (T : TotView) (root : Nat) (db : ConDb AnyVar) : List (Nat × Option Nat) → Nat → Prop
  | [], _ => True
  | (d, core) :: rest, bound =>
    (∃ c, db.get d = some c ∧ IfDef c (leafSum T root) (T.len root) (bound + 1) (toAxm (T.out root (bound + 1)))) ∧
      bound + 1 ≤ T.len root ∧
      (∀ i ∈ core, ∃ c, db.get i = some c ∧ ∀ ρ, (toAxm (T.out root (bound + 1))).val ρ = 1 → c.Holds ρ) ∧
      ExhaustInput T root db rest (bound + 1)

/-- With all leafs false and all outputs true, everything after the first line holds. -/
theorem exhaust_holds {root : Nat} {db : ConDb AnyVar} {ρ : AnyVar → Bool} (h0 : leafSum T root ρ = 0)
    (ho : ∀ v, 2 ≤ v → v ≤ T.len root → (toAxm (T.out root v)).val ρ = 1) :
    ∀ {l : List (Nat × Option Nat)} {bound : Nat} {ops : Ops} {c : LbCon AnyVar}, 1 ≤ bound →
      ExhaustInput T root db l bound → ops.eval db = some c → c.Holds ρ →
      ∃ c', (exhaustOps l bound ops).eval db = some c' ∧ c'.Holds ρ
  | [], _, ops, c, _, _, h, hc => ⟨c, h, hc⟩
  | (d, core) :: rest, bound, ops, c, hb, hin, h, hc => by
    obtain ⟨⟨cd, h1, h2⟩, h3, h4, h5⟩ := hin
    have hd : cd.Holds ρ := by
      rw [LbCon.holds_iff, h2 ρ, h0, ho _ (by omega) h3]
      push_cast
      omega
    have heval : (Ops.div (.add (.mul ops bound) (.id (.abs d))) (bound + 1)).eval db =
        some (((c.mul bound).add cd).div (bound + 1)) := by
      simp only [Ops.eval, ConDb.find_abs, h, h1, Option.map_some, Option.bind_eq_bind, Option.bind_some]
      rfl
    have hholds : (((c.mul bound).add cd).div (bound + 1)).Holds ρ :=
      LbCon.holds_div (LbCon.holds_add (LbCon.holds_mul hc bound) hd) (by omega)
    cases core with
    | none => exact ⟨_, heval, hholds⟩
    | some i =>
      obtain ⟨ci, h6, h7⟩ := h4 i rfl
      simp only [exhaustOps]
      refine exhaust_holds h0 ho (by omega) h5 (c := (((c.mul bound).add cd).div (bound + 1)).add ci) ?_
        (LbCon.holds_add hholds (h7 ρ (ho _ (by omega) h3)))
      rw [Ops.eval, heval, Ops.eval, ConDb.find_abs, h6]
      rfl

/-- The first line of core exhaustion: for every core, the sum of the core and of the `if` definition of the second output
holds under every assignment. -/
theorem exhaust_first_trivial {root : Nat} {c d : LbCon AnyVar} (hlen : 2 ≤ T.len root)
    (hc : ∀ ρ, c.slack ρ = (leafSum T root ρ : Int) - 1) (hd : IfDef d (leafSum T root) (T.len root) 2 (toAxm (T.out root 2)))
    (ρ : AnyVar → Bool) : (((c.mul 1).add d).div 2).Holds ρ := by
  refine LbCon.holds_div ?_ (by omega)
  rw [LbCon.holds_iff, LbCon.slack_add, LbCon.slack_mul, hc ρ, hd ρ]
  rcases val_cases (toAxm (T.out root 2)) ρ with h | h <;> rw [h] <;> push_cast <;> omega

/-- C38 fails with core exhaustion: for every core with at least two literals and however many cores were found by
exhausting it, the constraint that is written does not imply what is needed for the reformulation: there is an
assignment under which it holds, but the constraint of the core does not, for no number of outputs. -/
theorem exhaustion_not_reformulation {root : Nat} {db : ConDb AnyVar} {core : Nat} {c : LbCon AnyVar}
    {l : List (Nat × Option Nat)} (hT : TotContract T) (hlen : 2 ≤ T.len root) (hcore : db.get core = some c)
    (hc : ∀ ρ, c.slack ρ = (leafSum T root ρ : Int) - 1) (hne : l ≠ []) (hin : ExhaustInput T root db l 1) :
    ∃ c' ρ, (exhaustOps l 1 (.id (.abs core))).eval db = some c' ∧ c'.Holds ρ ∧
      ∀ n, 1 ≤ n → ¬ (coreCon T root n).Holds ρ := by
  obtain ⟨ρ, hρ⟩ := assign_all (ls := (T.leafs root).map Lit.not ++ outs T root 2 (T.len root - 1)) (by
    have := hT.distinct root
    simp only [List.map_append, List.map_map] at this ⊢
    exact this)
  have h0 : leafSum T root ρ = 0 := by
    have h1 := leafSum_eq T root ρ
    have h2 : ∀ ls : List Lit, (∀ l ∈ ls, (toAxm l).val ρ = 0) → valSum ls ρ = 0 := by
      intro ls
      induction ls with
      | nil => intro _; rfl
      | cons l ls ih =>
        intro h
        have h3 := ih fun x hx => h x (List.mem_cons_of_mem _ hx)
        simp only [valSum, List.map_cons, List.sum_cons] at h3 ⊢
        rw [h3, h l (List.mem_cons_self ..)]; rfl
    rw [h2 _ fun l hl => ?_] at h1
    · omega
    · have := hρ l.not (List.mem_append_left _ (List.mem_map.2 ⟨l, hl, rfl⟩))
      rw [toAxm_not_val] at this
      omega
  have ho : ∀ v, 2 ≤ v → v ≤ T.len root → (toAxm (T.out root v)).val ρ = 1 := fun v h1 h2 =>
    hρ _ (List.mem_append_right _ (List.mem_map.2 ⟨v, by rw [List.mem_range'_1]; omega, rfl⟩))
  cases l with
  | nil => exact absurd rfl hne
  | cons p rest =>
    obtain ⟨d, o⟩ := p
    obtain ⟨⟨cd, h1, h2⟩, h3, h4, h5⟩ := hin
    have heval : (Ops.div (.add (.mul (.id (.abs core)) 1) (.id (.abs d))) (1 + 1)).eval db =
        some (((c.mul 1).add cd).div (1 + 1)) := by
      simp only [Ops.eval, ConDb.find_abs, hcore, h1, Option.map_some, Option.bind_eq_bind, Option.bind_some]
      rfl
    have hholds := exhaust_first_trivial hlen hc h2 ρ
    have hfail : ∀ n, 1 ≤ n → ¬ (coreCon T root n).Holds ρ := by
      intro n hn hh
      rw [LbCon.holds_iff, slack_coreCon hn, h0] at hh
      have h6 : (0 : Int) ≤ valSum (outs T root 2 (n - 1)) ρ := valSum_nonneg _ ρ
      omega
    cases o with
    | none => exact ⟨_, ρ, heval, hholds, hfail⟩
    | some i =>
      obtain ⟨ci, h6, h7⟩ := h4 i rfl
      obtain ⟨c', g1, g2⟩ := exhaust_holds h0 ho (bound := 1 + 1) (by omega) h5
        (ops := .add (Ops.div (.add (.mul (.id (.abs core)) 1) (.id (.abs d))) (1 + 1)) (.id (.abs i)))
        (c := (((c.mul 1).add cd).div (1 + 1)).add ci)
        (by rw [Ops.eval, heval, Ops.eval, ConDb.find_abs, h6]; rfl)
        (LbCon.holds_add hholds (h7 ρ (ho _ (by omega) h3)))
      exact ⟨c', ρ, g1, g2, hfail⟩

/-! ## Examples -/

/-- Four literals, of which the second has weight three. -/
def logObj : Objective := .weighted 0 [(⟨0, false⟩, 2), (⟨1, false⟩, 3), (⟨2, false⟩, 2), (⟨3, false⟩, 2)] 0 0

/-- Two totalizers, the second one over the first output of the first one. -/
def logTot : TotView where
  len := fun r => if r = 0 then 4 else if r = 1 then 2 else 0
  leafs := fun r => if r = 0 then [⟨0, false⟩, ⟨1, false⟩, ⟨2, false⟩, ⟨3, false⟩] else
    if r = 1 then [⟨12, false⟩, ⟨1, false⟩] else []
  out := fun r v => ⟨10 * (r + 1) + v, false⟩
  sems := fun r v => if r = 0 then (if v = 2 then some ⟨none, some 2⟩ else if v = 3 then some ⟨none, some 6⟩ else
    if v = 4 then some ⟨none, some 7⟩ else none) else if v = 2 then some ⟨none, some 4⟩ else none

/-- The cores and the definitions of the outputs. -/
def logDb : ConDb AnyVar := [
  some (clauseCon [⟨0, false⟩, ⟨1, false⟩, ⟨2, false⟩, ⟨3, false⟩]),
  some ⟨[(1, ⟨.solver 0, false⟩), (1, ⟨.solver 1, false⟩), (1, ⟨.solver 2, false⟩), (1, ⟨.solver 3, false⟩),
    (2, ⟨.solver 12, true⟩)], 2⟩,
  some (clauseCon [⟨12, false⟩, ⟨1, false⟩]),
  some ⟨[(1, ⟨.solver 12, false⟩), (1, ⟨.solver 1, false⟩), (2, ⟨.solver 22, true⟩)], 2⟩,
  some (clauseCon [⟨12, false⟩]),
  some ⟨[(1, ⟨.solver 0, false⟩), (1, ⟨.solver 1, false⟩), (1, ⟨.solver 2, false⟩), (1, ⟨.solver 3, false⟩),
    (3, ⟨.solver 13, true⟩)], 3⟩,
  some ⟨[(1, ⟨.solver 0, false⟩), (1, ⟨.solver 1, false⟩), (1, ⟨.solver 2, false⟩), (1, ⟨.solver 3, false⟩),
    (4, ⟨.solver 14, true⟩)], 4⟩]

def logPf : Pf AnyVar := { db := logDb, steps := [], nInput := 7, nProofVars := 0 }

/-- A core of all literals, a core of the second output and a literal, and a core of the second output, so that the third
output comes in. -/
def logEvents : List OllEvent :=
  [.core [⟨0, false⟩, ⟨1, false⟩, ⟨2, false⟩, ⟨3, false⟩] 1, .reform 0, .core [⟨12, false⟩, ⟨1, false⟩] 3, .reform 1,
    .core [⟨12, false⟩] 5]

/-- The state after some of the events. -/
def logAt (n : Nat) : OllLog := ((OllLog.start logObj logPf).run logTot (logEvents.take n)).getD (OllLog.start logObj logPf)

theorem logTot_contract : TotContract logTot where
  distinct := by
    intro root
    by_cases h0 : root = 0
    · subst h0; decide
    · by_cases h1 : root = 1
      · subst h1; decide
      · simp [logTot, h0, h1, outs]
  injective := by
    intro r r' v v' h1 h2 h3 h4 h
    simp only [logTot, Lit.mk.injEq, and_true] at h h2 h4
    split at h2
    · split at h4
      · omega
      · split at h4 <;> omega
    · split at h2
      · split at h4
        · omega
        · split at h4 <;> omega
      · omega

theorem logDefined {db : ConDb AnyVar} {used : List Nat} {root v d : Nat} (h : logTot.sems root v = some ⟨none, some d⟩)
    (hu : d ∉ used) (hg : db.get d = logDb.get d) (hr : root < 2) : OutputDefined logTot db used root v := by
  have key : (root = 0 ∧ v = 2 ∧ d = 2) ∨ (root = 0 ∧ v = 3 ∧ d = 6) ∨ (root = 0 ∧ v = 4 ∧ d = 7) ∨
      (root = 1 ∧ v = 2 ∧ d = 4) := by
    simp only [logTot] at h
    repeat' split at h
    all_goals
      simp only [Option.some.injEq, SemDefs.mk.injEq, reduceCtorEq, true_and] at h
    all_goals omega
  rcases key with ⟨rfl, rfl, rfl⟩ | ⟨rfl, rfl, rfl⟩ | ⟨rfl, rfl, rfl⟩ | ⟨rfl, rfl, rfl⟩ <;>
    (refine ⟨_, _, _, h, rfl, hu, hg.trans rfl, fun ρ => ?_⟩
     rw [leafSum_eq, LbCon.slack_def]
     have hn : ∀ x, (⟨.solver x, true⟩ : Axm AnyVar).val ρ = 1 - (⟨.solver x, false⟩ : Axm AnyVar).val ρ := fun x =>
       toAxm_not_val ⟨x, false⟩ ρ
     simp only [List.map_cons, List.map_nil, List.sum_cons, List.sum_nil, valSum, logTot, if_true, if_false, one_ne_zero,
       toAxm, hn]
     push_cast
     ring)

theorem logAt_step {n : Nat} {e : OllEvent} {st : OllLog} (he : (logAt n).event logTot e = some (logAt (n + 1)))
    (h : (logAt n).event logTot e = some st) : st = logAt (n + 1) := Option.some.inj (h.symm.trans he)

theorem log_events : OllRun logTot ord logObj logPf logEvents (logAt 5) where
  keys := by decide
  run := rfl
  allowed := by
    refine ⟨?_, fun st h => ?_⟩
    · exact ⟨by decide, by decide, ⟨_, rfl, LbCon.Same.refl _⟩, by decide, fun _ hp => (by cases hp)⟩
    cases logAt_step (n := 0) rfl h
    refine ⟨?_, fun st h => ?_⟩
    · intro c hc
      cases hc
      exact ⟨List.Perm.refl _, rfl, logDefined (d := 2) rfl (by decide) rfl (by decide), fun _ hp => (by cases hp),
        by decide⟩
    cases logAt_step (n := 1) rfl h
    refine ⟨?_, fun st h => ?_⟩
    · refine ⟨by decide, by decide, ⟨_, rfl, LbCon.Same.refl _⟩, by decide, ?_⟩
      intro p hp _ _
      cases List.mem_singleton.1 hp
      exact logDefined (d := 6) rfl (by decide) rfl (by decide)
    cases logAt_step (n := 2) rfl h
    refine ⟨?_, fun st h => ?_⟩
    · intro c hc
      cases hc
      exact ⟨List.Perm.refl _, rfl, logDefined (d := 4) rfl (by decide) rfl (by decide), by decide, by decide⟩
    cases logAt_step (n := 3) rfl h
    refine ⟨?_, fun _ _ => trivial⟩
    refine ⟨by decide, by decide, ⟨_, rfl, LbCon.Same.refl _⟩, by decide, ?_⟩
    intro p hp hl hlt
    have h4 : (logAt 4).refs = [(⟨12, false⟩, ⟨0, 1, 2, 8⟩), (⟨22, false⟩, ⟨1, 1, 1, 9⟩)] := by decide +kernel
    rw [h4] at hp
    simp only [List.mem_cons, List.not_mem_nil, or_false] at hp
    rcases hp with rfl | rfl
    · exact logDefined (d := 6) rfl (by decide +kernel) (by rfl) (by decide)
    · exact absurd hlt (by decide)
  ends := by
    refine ⟨rfl, ?_⟩
    intro p hp v h1 h2
    have h4 : (logAt 5).refs = [(⟨22, false⟩, ⟨1, 1, 1, 9⟩), (⟨13, false⟩, ⟨0, 2, 2, 10⟩)] := by decide +kernel
    rw [h4] at hp
    simp only [List.mem_cons, List.not_mem_nil, or_false] at hp
    rcases hp with rfl | rfl
    · have : v ≤ 2 := h2
      simp only at h1
      omega
    · have h3 : v ≤ 4 := h2
      simp only at h1
      have : v = 4 := by omega
      subst this
      exact logDefined (d := 7) rfl (by decide +kernel) (by rfl) (by decide)

/-- The last line of the proof is the reformulation with two outputs in use and two that are not. -/
example : ∃ st', logFinal logTot (logAt 5) = some (some 12, st') ∧ st'.offset = 4 ∧
    WritesPf ord logPf st'.proof ∧ ∃ c, st'.proof.db.get 12 = some c ∧ LbCon.Same c (reformCon logObj logTot st') :=
  ⟨_, rfl, rfl, oll_reformulation logTot_contract log_events rfl⟩

/-- All literals true satisfies everything in the proof. -/
example : ∀ st', logFinal logTot (logAt 5) = some (some 12, st') → ∀ c ∈ live st'.proof.db, c.Holds fun _ => true := by
  intro st' h
  have : logFinal logTot (logAt 5) = some (some 12, ((logFinal logTot (logAt 5)).map Prod.snd).getD (logAt 5)) := by rfl
  rw [this] at h
  cases h
  show ∀ c ∈ live _, LbCon.lhs _ c ≥ c.bound
  decide +kernel

/-- The first two literals are true, and the outputs accordingly. -/
def logRho : AnyVar → Bool := fun v => v == .solver 0 || v == .solver 1 || v == .solver 12 || v == .solver 22

example : ∃ st', logFinal logTot (logAt 5) = some (some 12, st') ∧ (reformCon logObj logTot st').slack logRho = 0 ∧
    objSum logObj logRho = 5 ∧ st'.offset = 4 ∧ linear (solverAsg logRho) st'.inactives = 1 := by
  refine ⟨_, rfl, oll_reformulation_exact logTot_contract (log_events (ord := fun _ _ => True)) rfl ?_ ?_, by decide,
    rfl, by decide +kernel⟩
  · show ∀ c ∈ live _, LbCon.lhs _ c ≥ c.bound
    decide +kernel
  · intro root v h1 h2
    have h3 : root = 0 ∧ v ≤ 4 ∨ root = 1 ∧ v ≤ 2 := by
      simp only [logTot] at h2
      split at h2
      · omega
      · split at h2 <;> omega
    rcases h3 with ⟨rfl, h3⟩ | ⟨rfl, h3⟩
    · have : v = 2 ∨ v = 3 ∨ v = 4 := by omega
      rcases this with rfl | rfl | rfl <;> decide
    · have : v = 2 := by omega
      subst this
      decide

/-- The constraint of a core of which all leafs are true. -/
example : (coreCon logTot 0 4).slack (fun _ => true) = 0 :=
  coreCon_exact (T := logTot) (root := 0) rfl (by decide) (by
    intro v _ h
    have h1 : leafSum logTot 0 (fun _ => true) = 4 := by decide
    have h2 : v ≤ 4 := h
    rw [h1]
    simp [toAxm, logTot, Axm.val, h2]) (by decide)

/-- An objective without cores needs no line. -/
example : (logFinal logTot (OllLog.start logObj logPf)).map Prod.fst = some none := by decide +kernel

/-- Two leafs, exhausted up to the last output. -/
def exhTot : TotView where
  len := fun r => if r = 0 then 2 else 0
  leafs := fun r => if r = 0 then [⟨0, false⟩, ⟨1, false⟩] else []
  out := fun _ v => ⟨10 + v, false⟩
  sems := fun r v => if r = 0 ∧ v = 2 then some ⟨some 2, some 3⟩ else none

def exhDb : ConDb AnyVar := [
  some (clauseCon [⟨0, false⟩, ⟨1, false⟩]),
  some ⟨[(1, ⟨.solver 0, true⟩), (1, ⟨.solver 1, true⟩), (1, ⟨.solver 12, false⟩)], 1⟩,
  some (clauseCon [⟨12, false⟩])]

theorem exhTot_contract : TotContract exhTot where
  distinct := by
    intro root
    by_cases h0 : root = 0
    · subst h0; decide
    · simp [exhTot, h0, outs]
  injective := by
    intro r r' v v' h1 h2 h3 h4 h
    simp only [exhTot, Lit.mk.injEq, and_true] at h h2 h4
    split at h2
    · split at h4 <;> omega
    · omega

theorem exhCore (ρ : AnyVar → Bool) : (clauseCon [⟨0, false⟩, ⟨1, false⟩]).slack ρ = (leafSum exhTot 0 ρ : Int) - 1 := by
  rw [slack_clauseCon, leafSum_eq]
  rfl

theorem exhInput : ExhaustInput exhTot 0 exhDb [(2, some 3)] 1 := by
  refine ⟨⟨_, rfl, fun ρ => ?_⟩, by decide, ?_, trivial⟩
  · rw [leafSum_eq, LbCon.slack_def]
    have hn : ∀ x, (⟨.solver x, true⟩ : Axm AnyVar).val ρ = 1 - (⟨.solver x, false⟩ : Axm AnyVar).val ρ := fun x =>
      toAxm_not_val ⟨x, false⟩ ρ
    simp only [List.map_cons, List.map_nil, List.sum_cons, List.sum_nil, valSum, exhTot, if_true, toAxm, hn]
    push_cast
    ring
  · intro i hi
    cases hi
    refine ⟨_, rfl, fun ρ h => ?_⟩
    rw [LbCon.holds_iff, slack_clauseCon, valSum_single]
    have : (toAxm (⟨12, false⟩ : Lit)).val ρ = 1 := h
    omega

example : ∃ c' ρ, (exhaustOps [(2, some 3)] 1 (.id (.abs 1))).eval exhDb = some c' ∧ c'.Holds ρ ∧
    ∀ n, 1 ≤ n → ¬ (coreCon exhTot 0 n).Holds ρ :=
  exhaustion_not_reformulation exhTot_contract (by decide) rfl exhCore (by decide) exhInput

/-- The definitions meet the hypotheses of `core_extended`: from the second to the third output. -/
example : ∃ c', (extendOps (.id (.abs 8)) 2 6).eval (logAt 4).proof.db = some c' ∧
    LbCon.Same c' (coreCon logTot 0 3) := by
  obtain ⟨_, _, c, h1, h2, _, h3, h4⟩ := logDefined (db := (logAt 4).proof.db) (used := []) (root := 0) (v := 3) (d := 6) rfl
    (by decide) (by rfl) (by decide)
  cases h1; cases h2
  have hc : LbCon.Same (((clauseCon [⟨0, false⟩, ⟨1, false⟩, ⟨2, false⟩, ⟨3, false⟩]).add
      ⟨[(1, ⟨.solver 0, false⟩), (1, ⟨.solver 1, false⟩), (1, ⟨.solver 2, false⟩), (1, ⟨.solver 3, false⟩),
        (2, ⟨.solver 12, true⟩)], 2⟩).div 2) (coreCon logTot 0 2) := by
    obtain ⟨_, _, c, h1, h2, _, h3, h4⟩ := logDefined (db := logDb) (used := []) (root := 0) (v := 2) (d := 2) rfl
      (by decide) rfl (by decide)
    cases h1; cases h2
    cases h3
    exact first_same (LbCon.Same.refl _) (List.Perm.refl _) h4 (logTot_contract.upTo 0 (by decide))
  exact core_extended (by decide) hc h4 (logTot_contract.upTo 0 (by decide)) (by rfl) h3

end Scuttle
