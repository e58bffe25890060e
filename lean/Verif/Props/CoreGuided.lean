import Verif.Props.CoreBoost
import Verif.Proof.CoreProc

/-!
# C28, C29, C46: core-guided search
-/

set_option linter.unusedSectionVars false

namespace Scuttle

open Spec

variable {P C D : Type} [UbEnc P] [UbEnc C] [LawfulUbEnc P] [LawfulUbEnc C] [TotDb D] [LawfulTotDb D] [MergeEnc P C D]
  [LawfulMergeEnc P C D]
variable {env : Env} {s : Slv P C} {inst : Instance} {opts : KernelOptions} {bcg : Assignment → Clause}

/-! ## C28 -/

/-- States of the core-guided search for objective number `k` in core boosting: the other objectives before it have been
dealt with, and the body of the loop of `oll` has been performed any number of times. -/
inductive Searching (D : Type) [TotDb D] (env : Env) (inst : Instance) (bcg : Assignment → Clause) (opts : KernelOptions)
    (fuel k : Nat) (o : Objective) : OllState D → Slv P C → Prop where
  | start {alg : Alg} {s0 s1 s2 s3 : Slv P C} {acc : List (Reform × D)} : Started alg inst bcg opts s0 →
      logRoutineStart "core boost" env s0 = (.ok (), s1) →
      coreBoostLoop D fuel k 0 [] env s1 = (.ok (acc, false), s2) → inst.objs[k]? = some o → o.isConstant = false →
      logRoutineStart "oll" env s2 = (.ok (), s3) →
      Searching D env inst bcg opts fuel k o
        ⟨Reform.ofObjective o, TotDb.empty, (Reform.ofObjective o).inactives.assumps, [], []⟩ s3
  | step {st st' : OllState D} {s s' : Slv P C} {exactRef : Bool} : Searching D env inst bcg opts fuel k o st s →
      ollBody fuel [] [] exactRef st env s = (.ok (.inl st'), s') → Searching D env inst bcg opts fuel k o st' s'

/-- The cores of a search that are not reformulated yet: their connections and weights. -/
def OllState.openCores (st : OllState D) : List (List NodeCon × Nat) :=
  st.cores.map fun c => ((st.cons.drop c.idx).take c.len, c.weight)

theorem logEvent_ok {ev : LogEvent} {s1 : Slv P C} {n : Nat} (hio : IoInv env n s.io)
    (h : logEvent ev env s = (.ok (), s1)) (hp : ev.Plain := by intro _ h; cases h) : Same s s1 ∧ s1.k = s.k ∧ IoInv env n s1.io := by
  have := wp_logEvent (env := env) (s := s) (n := n) (Q := fun _ s' => Same s s' ∧ s'.k = s.k ∧ IoInv env n s'.io)
    (E := fun _ _ => True) ev hio (fun s1 h1 h2 h3 => ⟨h1, h2, h3⟩) (fun _ _ _ _ => trivial) hp
  unfold wp at this
  rw [h] at this
  exact this

theorem Searching.linv {fuel k : Nat} {o : Objective} {st : OllState D} (hs : Setting inst bcg opts env)
    (nd : NoDupCores env) (hn : NoDupLits inst) (h : Searching D env inst bcg opts fuel k o st s) :
    ∃ os o', LbOnly inst.objs os ∧ o' ∈ os ∧ o'.setLowerBound 0 = o.setLowerBound 0 ∧
    ∃ (s0 : Slv P C) (d0 : D), LInv ((inst.withObjs os).pb opts bcg) env inst.objs.length o' s0 d0 st s := by
  induction h with
  | @start alg s0 s1 s2' s3 acc h0 h1 h2 ho hc h3 =>
    have hb := (fresh_fine hs.wf (started_fresh h0)).binv (env := env) (D := D)
    obtain ⟨g1, g2, g3⟩ := logEvent_ok hb.io h1
    have hb1 := hb.same g1 g2 g3
    have hw := wp_coreBoostLoop (fuel := fuel) hs nd hn k [] hb1 (by
      have := (List.getElem?_eq_some_iff.1 ho).1
      simp
      omega)
    unfold wp at hw
    rw [List.length_nil, h2] at hw
    obtain ⟨-, -, h4, -⟩ := hw
    obtain ⟨h5, h6⟩ := h4 rfl
    obtain ⟨g4, g5, g6⟩ := logEvent_ok h5.io h3
    have hlt : k < s2'.k.objs.length := by
      rw [h5.rel.length]; exact (List.getElem?_eq_some_iff.1 ho).1
    obtain ⟨o1, ho1, he⟩ := h5.rel.get (List.getElem?_eq_getElem hlt)
    obtain rfl : o1 = o := by rw [ho] at ho1; simpa using ho1.symm
    generalize hoo : s2'.k.objs[k] = o' at he
    have hmem : o' ∈ s2'.k.objs := by rw [← hoo]; exact List.getElem_mem hlt
    have hinit := LInv.init (d := (TotDb.empty : D)) (env := env) (n := inst.objs.length) (o := o')
      (by rw [lb_isConstant he]; exact hc) (by rw [lb_objLits he]; exact hn _ (List.mem_of_getElem? ho)) h5.cg h5.lim g4 g6
    have href : Reform.ofObjective o' = Reform.ofObjective o1 := by
      cases o' <;> cases o1 <;> simp_all [Reform.ofObjective, Objective.setLowerBound]
    rw [href] at hinit
    exact ⟨_, o', h5.rel, hmem, he, s2', _, hinit⟩
  | step h1 h2 ih =>
    obtain ⟨os, o', h3, h4, he, s0, d0, h5⟩ := ih
    have hs' := h3.setting hs
    have wf := pb_wf (opts := opts) (bcg := bcg) hs'.wf
    have hw := wp_ollBody (fuel := fuel) (N := maxCost o') wf (CorrectOracle.ok hs.oracle) nd (by
      intro l hl
      obtain ⟨p, hp, rfl⟩ := (mem_objLits o' l).1 hl
      exact wf.objs o' h4 p hp) (fun t ht => icost_le_usize h3 hs h4 ht) (Nat.le_refl _) h5 ‹_›
      (.self h5.inv.cg h5.inv.lim)
    unfold wp at hw
    rw [h2] at hw
    exact ⟨os, o', h3, h4, he, s0, d0, hw.1⟩

/-- C28: at any time in the search the offset is a lower bound, and the reformulated objective has the same value as the
objective on all feasible assignments. -/
theorem oll_lower_bound {fuel k : Nat} {o : Objective} {st : OllState D} (hs : Setting inst bcg opts env)
    (nd : NoDupCores env) (hn : NoDupLits inst) (h : Searching D env inst bcg opts fuel k o st s) {t : Asg}
    (ht : (problem inst).Feasible t) :
    (st.reform.offset * o.unitWeight : Nat) + o.offset ≤ objValue o t ∧
    objValue o t = (reformValue st.reform st.openCores (fun id => TotSem.cnt st.db id t) t * o.unitWeight : Nat) + o.offset := by
  obtain ⟨os, o', h1, h2, he, s0, d0, h3⟩ := h.linv hs nd hn
  have hsol : ((inst.withObjs os).pb opts bcg).Sol t := by
    rw [← feasible_iff (opts := opts) (bcg := bcg), h1.problem]; exact ht
  have hid : icost o t = reformValue st.reform st.openCores (fun id => TotSem.cnt st.db id t) t := by
    rw [← lb_icost he, h3.inv.ref.ident t hsol]
    rfl
  rw [objValue_eq]
  unfold extVal
  rw [hid]
  refine ⟨?_, rfl⟩
  have hle : st.reform.offset ≤ reformValue st.reform st.openCores (fun id => TotSem.cnt st.db id t) t := by
    unfold reformValue; omega
  have := Nat.mul_le_mul_right o.unitWeight hle
  omega

/-- C28: if all cores have been reformulated, an assignment that satisfies the clauses in the oracle and the assumptions
is feasible and has the smallest value. -/
theorem oll_assumptions_optimal {fuel k : Nat} {o : Objective} {st : OllState D} (hs : Setting inst bcg opts env)
    (nd : NoDupCores env) (hn : NoDupLits inst) (h : Searching D env inst bcg opts fuel k o st s) (hc : st.cores = [])
    {m : Asg} (hm : ∀ c ∈ s.k.db, ∃ l ∈ c, LitTrue m l) (ha : ∀ l ∈ st.rest, LitTrue m l) :
    (problem inst).Feasible m ∧ objValue o m = (st.reform.offset * o.unitWeight : Nat) + o.offset ∧
    ∀ t, (problem inst).Feasible t → objValue o m ≤ objValue o t := by
  obtain ⟨os, o', h1, h2, he, s0, d0, h3⟩ := h.linv hs nd hn
  have hm' : cnfEval m s.k.db = true := by
    unfold cnfEval clauseEval
    simpa [List.all_eq_true, List.any_eq_true, Lit.eval_iff] using hm
  have href := h3.inv.ref
  rw [hc, List.map_nil] at href
  have hopt : icost o m = st.reform.offset := by
    rw [← lb_icost he]
    refine h3.inv.cg.opt_of_false href hm' ?_
    intro l w hl hw
    have := ha _ (h3.inv.rest.all l w hl hw)
    rw [litTrue_not, ← Lit.eval_iff] at this
    simpa using this
  have hsol := h3.inv.cg.sol hm'
  rw [← feasible_iff (opts := opts) (bcg := bcg), h1.problem] at hsol
  have hval : objValue o m = (st.reform.offset * o.unitWeight : Nat) + o.offset := by
    rw [objValue_eq]; unfold extVal; rw [hopt]
  exact ⟨hsol, hval, fun t ht => by rw [hval]; exact (oll_lower_bound hs nd hn h ht).1⟩

/-- Performs `n` steps of the search for the first objective of an instance. -/
def Example.search (inst : Instance) (opts : KernelOptions) (o : Objective) :
    Nat → Option (OllState RefTot × Slv (RefTot.RefTree 1) (RefTot.RefTree 0))
  | 0 =>
    match Alg.pMinimal.new (P := RefTot.RefTree 1) (C := RefTot.RefTree 0) inst defaultBlockingClause opts with
    | none => none
    | some s =>
      match logRoutineStart "core boost" refEnv s with
      | (.ok (), s1) =>
        match logRoutineStart "oll" refEnv s1 with
        | (.ok (), s2) => some (⟨Reform.ofObjective o, TotDb.empty, (Reform.ofObjective o).inactives.assumps, [], []⟩, s2)
        | _ => none
      | _ => none
  | n + 1 =>
    match Example.search inst opts o n with
    | none => none
    | some (st, s) =>
      match ollBody 50 [] [] true st refEnv s with
      | (.ok (.inl st'), s') => some (st', s')
      | _ => none

theorem Example.search_searching {inst : Instance} {opts : KernelOptions} {o : Objective} (ho : inst.objs[0]? = some o)
    (hc : o.isConstant = false) (n : Nat) {st : OllState RefTot} {s : Slv (RefTot.RefTree 1) (RefTot.RefTree 0)}
    (h : Example.search inst opts o n = some (st, s)) :
    Searching RefTot refEnv inst defaultBlockingClause opts 50 0 o st s := by
  induction n generalizing st s with
  | zero =>
    unfold Example.search at h
    split at h
    · simp at h
    · next s0 h0 =>
      split at h
      · next s1 h1 =>
        split at h
        · next s2 h2 =>
          simp only [Option.some.injEq, Prod.mk.injEq] at h
          obtain ⟨rfl, rfl⟩ := h
          exact .start (alg := .pMinimal) (acc := []) ⟨s0, h0, .inl rfl⟩ h1 rfl ho hc h2
        · simp at h
      · simp at h
  | succ n ih =>
    unfold Example.search at h
    split at h
    · simp at h
    · next st0 s0 h0 =>
      split at h
      · next st1 s1 h1 =>
        simp only [Option.some.injEq, Prod.mk.injEq] at h
        obtain ⟨rfl, rfl⟩ := h
        exact .step (ih h0) h1
      · simp at h

/-- The hypotheses are met: after two steps on this instance one core has been reformulated, with output 1 of a totalizer
over three literals in the objective and the offset 2. -/
def Example.cores : Instance where
  clauses := [[Lit.pos 0, Lit.pos 1, Lit.pos 2]]
  objs := [.weighted 0 [(Lit.pos 0, 2), (Lit.pos 1, 2), (Lit.pos 2, 3)] 0 0]
  vm := ⟨3, 2, 2⟩

example : (Example.search Example.cores {} (.weighted 0 [(Lit.pos 0, 2), (Lit.pos 1, 2), (Lit.pos 2, 3)] 0 0) 2).any
    (fun p => p.1.reform.offset == 2 && p.1.reform.refs.length == 1 && p.1.cores.isEmpty &&
      p.1.reform.inactives.iter.length == 4) := by decide +kernel

/-- After one step the core is not reformulated yet. -/
example : (Example.search Example.cores {} (.weighted 0 [(Lit.pos 0, 2), (Lit.pos 1, 2), (Lit.pos 2, 3)] 0 0) 1).any
    (fun p => p.1.reform.offset == 2 && p.1.openCores.length == 1) := by decide +kernel

/-! ## C29 -/

/-- C29: after core boosting, the encoding of each objective bounds the objective: if the bound is encoded, the assumptions
that enforce it are available, an assignment that satisfies the clauses and the assumptions is feasible and meets the
bound, and each feasible assignment that meets the bound can be extended to such an assignment. -/
theorem coreBoost_encodings {alg : Alg} {cb : CbOptions} {fuel : Nat} (hs : Setting inst bcg opts env) (nd : NoDupCores env)
    (hn : NoDupLits inst) (h0 : Started alg inst bcg opts s) (hb : (coreBoost D fuel cb env s).1 = .ok true)
    {j : Nat} {e : ObjEnc P C} {o : Objective} (he : (coreBoost D fuel cb env s).2.encs[j]? = some e)
    (ho : (coreBoost D fuel cb env s).2.k.objs[j]? = some o) {lo hi b : Nat} (hlo : lo ≤ b) (hhi : b < hi)
    (hlb : o.lowerBound ≤ b) :
    let s1 := (coreBoost D fuel cb env s).2
    let r := e.encodeUbChange lo hi s1.k.vm.nextVar
    ∃ ls, r.1.enforceUb b = some ls ∧
      (∀ m, (∀ c ∈ s1.k.db ++ r.2.1, ∃ l ∈ c, LitTrue m l) → (∀ l ∈ ls, LitTrue m l) →
        (problem inst).Feasible m ∧ objValue o m ≤ (b * o.unitWeight : Nat) + o.offset) ∧
      (∀ t, (problem inst).Feasible t → objValue o t ≤ (b * o.unitWeight : Nat) + o.offset →
        ∃ m, (∀ v, v ≤ inst.vm.maxEncVar → m v = t v) ∧ (∀ c ∈ s1.k.db ++ r.2.1, ∃ l ∈ c, LitTrue m l) ∧
          ∀ l ∈ ls, LitTrue m l) := by
  intro s1 r
  obtain ⟨h1, -, -⟩ := boosted_of_ok hs nd hn h0 hb
  have hs' := h1.rel.setting hs
  have wf := pb_wf (opts := opts) (bcg := bcg) hs'.wf
  have hmem : o ∈ s1.k.objs := List.mem_of_getElem? ho
  have hpos := unitWeight_pos hs'.unit hmem
  have hval : ∀ t, objValue o t ≤ (b * o.unitWeight : Nat) + o.offset ↔ icost o t ≤ b := by
    intro t
    rw [objValue_eq]
    unfold extVal
    rw [Int.add_le_add_iff_right, Int.ofNat_le]
    exact Nat.mul_le_mul_right_iff hpos
  have hf : ∀ t, (pbAt inst opts bcg s1).Sol t ↔ (problem inst).Feasible t := fun t =>
    (feasible_iff (opts := opts) (bcg := bcg) (inst := inst.withObjs s1.k.objs) t).symm.trans (by rw [h1.rel.problem])
  have inv := h1.core.inv
  have hbel : e.Below s1.k.vm.nextVar := inv.below j e he
  obtain ⟨g1, g2, g3, g4, g5, -, g6, g7, -, g8⟩ := e.encodeUbChange_spec lo hi s1.k.vm.nextVar hbel
  have hready : r.1.Ready b := by
    cases hc : e.isConstant with
    | true =>
      cases e with
      | constant => trivial
      | _ => simp [ObjEnc.isConstant] at hc
    | false => exact g8 b (by rw [h1.offset j e o he ho hc]; exact hlb) hlo hhi
  obtain ⟨ls, e1, e2, e3, e4, e5, e6⟩ := r.1.enforceUb_spec b r.2.2 hready g2
  have heval : ∀ m, (∀ c ∈ s1.k.db ++ r.2.1, ∃ l ∈ c, LitTrue m l) ↔ cnfEval m s1.k.db = true ∧ cnfEval m r.2.1 = true := by
    intro m
    unfold cnfEval clauseEval
    simp [List.all_eq_true, List.any_eq_true, Lit.eval_iff, or_imp, forall_and]
  have hcube : ∀ m, (∀ l ∈ ls, LitTrue m l) ↔ cubeEval m ls = true := by
    intro m
    unfold cubeEval
    simp [List.all_eq_true, Lit.eval_iff]
  refine ⟨ls, e1, ?_, ?_⟩
  · intro m hm hl
    obtain ⟨m1, m2⟩ := (heval m).1 hm
    have hsol := (inv.sound m m1).1
    refine ⟨(hf m).1 hsol, (hval m).2 ?_⟩
    cases hc : e.isConstant with
    | true => rw [h1.const j e o he ho hc m ((hf m).1 hsol)]; exact hlb
    | false =>
      exact e3 o m (by rw [g5]; exact hc) (g6 o m (inv.encSound m m1 j e o he ho) m2) ((hcube m).1 hl)
  · intro t ht hle
    obtain ⟨m, a1, a2⟩ := inv.ext t ((hf t).2 ht) trivial
    have hvars : ∀ p ∈ o.iter, p.1.var < (pbAt inst opts bcg s1).n0 := fun p hp => wf.objs o hmem p hp
    obtain ⟨m', b1, b2, b3⟩ := g7 o m (fun p hp => Nat.lt_of_lt_of_le (hvars p hp) inv.next) (a2.exact j e o he ho)
    have hcost : icost o m' = icost o t := by
      refine (linear_congr fun p hp => ?_).symm
      exact (a1 _ (hvars p hp)).trans (b1 _ (Nat.lt_of_lt_of_le (hvars p hp) inv.next))
    refine ⟨m', fun v hv => ?_, (heval m').2 ⟨?_, b2⟩, (hcube m').2 (e4 o m' b3 (by rw [hcost]; exact (hval t).1 hle))⟩
    · have hv' : v < (pbAt inst opts bcg s1).n0 := by
        show v < inst.vm.maxEncVar + 1
        omega
      exact ((a1 v hv').trans (b1 v (Nat.lt_of_lt_of_le hv' inv.next))).symm
    · rw [← cnfEval_agree b1 inv.dbVars]; exact a2.db

/-- The hypotheses are met: see the example for C17; here the encoding of the first objective, with the bounds 2 to 5. -/
def Example.boundAfter (inst : Instance) (cb : CbOptions) (b : Nat) : Option (List Lit) :=
  (Alg.pMinimal.new (P := RefTot.RefTree 1) (C := RefTot.RefTree 0) inst defaultBlockingClause {}).bind fun s =>
    let s1 := (coreBoost RefTot 50 cb refEnv s).2
    s1.encs[0]?.bind fun e => (e.encodeUbChange 2 6 s1.k.vm.nextVar).1.enforceUb b

example : ((Example.boundAfter Example.cores {} 2).map List.length).any (· > 0) ∧
    ((Example.boundAfter Example.cores { rebase := true } 3).map List.length).any (· > 0) := by decide +kernel

/-! ## C46 -/

theorem sortedLits_litLt {ls : List Lit} (h : SortedLits ls) : ls.Pairwise fun a b => litLt a b = true :=
  h.imp fun {a b} h => by
    unfold litLt
    rcases h with h | ⟨h1, h2, h3⟩
    · simp [h]
    · simp [h1, h2, h3]

/-- C46: minimizing a core leaves the clauses in the oracle as they are, and if it does not stop early its result is again
a core of the clauses and the base assumptions, with literals of the core or of base assumptions only; without the latter
if the base assumptions are sorted and the oracle keeps the order of the assumptions. -/
theorem minimizeCore_core {base core core' : List Lit} {s s' : Slv P C} (orc : CorrectOracle env)
    (hc : CoreOf s.k.db base core) (h : minimizeCore core base env s = (.ok core', s')) :
    s'.k.db = s.k.db ∧ CoreOf s.k.db base core' ∧ (∀ l ∈ core', l ∈ core ∨ l.not ∈ base) ∧
    (OrderedCores env → SortedLits base → ∀ l ∈ core', l ∈ core) := by
  have hw := wp_minimizeCore_any orc hc
  unfold wp at hw
  rw [h] at hw
  exact ⟨hw.1, hw.2.implied, hw.2.sub, fun h1 h2 => hw.2.ordered h1 (sortedLits_litLt h2)⟩

/-- C46: the same for trimming. -/
theorem trimCore_core {base core core' : List Lit} {fuel : Nat} {s s' : Slv P C} (orc : CorrectOracle env)
    (hc : CoreOf s.k.db base core) (h : trimCore fuel core base env s = (.ok core', s')) :
    s'.k.db = s.k.db ∧ CoreOf s.k.db base core' ∧ (∀ l ∈ core', l ∈ core ∨ l.not ∈ base) ∧
    (OrderedCores env → SortedLits base → ∀ l ∈ core', l ∈ core) := by
  have hw := wp_trimCore_any (fuel := fuel) orc hc
  unfold wp at hw
  rw [h] at hw
  exact ⟨hw.1, hw.2.implied, hw.2.sub, fun h1 h2 => hw.2.ordered h1 (sortedLits_litLt h2)⟩

theorem insertLit_perm (l : Lit) (ls : List Lit) : (insertLit l ls).Perm (l :: ls) := by
  induction ls with
  | nil => exact .refl _
  | cons a as ih =>
    unfold insertLit
    split
    · exact (ih.cons a).trans (.swap _ _ _)
    · exact .refl _

theorem litLt_iff (a b : Lit) : litLt a b = true ↔ a.var < b.var ∨ a.var = b.var ∧ a.neg = false ∧ b.neg = true := by
  unfold litLt
  cases a.neg <;> cases b.neg <;> simp

theorem insertLit_sorted {l : Lit} {ls : List Lit} (h : SortedLits ls) (hn : l ∉ ls) : SortedLits (insertLit l ls) := by
  induction ls with
  | nil => exact List.pairwise_singleton _ _
  | cons a as ih =>
    obtain ⟨h1, h2⟩ := List.pairwise_cons.1 h
    unfold insertLit
    split
    · next hlt =>
      refine List.pairwise_cons.2 ⟨fun b hb => ?_, ih h2 fun h => hn (List.mem_cons_of_mem _ h)⟩
      rcases List.mem_cons.1 ((insertLit_perm l as).mem_iff.1 hb) with rfl | hb
      · exact (litLt_iff _ _).1 hlt
      · exact h1 b hb
    · next hlt =>
      have hla : l.var < a.var ∨ l.var = a.var ∧ l.neg = false ∧ a.neg = true := by
        have hne : l ≠ a := fun h => hn (h ▸ List.mem_cons_self)
        rw [litLt_iff] at hlt
        rcases Nat.lt_trichotomy l.var a.var with h | h | h
        · exact .inl h
        · refine .inr ⟨h, ?_⟩
          have : l.neg ≠ a.neg := fun h' => hne (by cases l; cases a; simp_all)
          cases hl : l.neg <;> cases ha : a.neg <;> simp_all
        · exact absurd (.inl h) hlt
      refine List.pairwise_cons.2 ⟨fun b hb => ?_, h⟩
      rcases List.mem_cons.1 hb with rfl | hb
      · exact hla
      · have := h1 b hb
        rcases hla with h | h <;> rcases this with h' | h' <;> simp_all <;> omega

/-- C46: the assumptions by which the core is filtered are the base assumptions in the order that `filterBase_core` asks for. -/
theorem sortLits_sorted (ls : List Lit) : (sortLits ls).Perm ls ∧ (ls.Nodup → SortedLits (sortLits ls)) := by
  induction ls with
  | nil => exact ⟨.refl _, fun _ => .nil⟩
  | cons l ls ih =>
    refine ⟨(insertLit_perm l _).trans (ih.1.cons l), fun h => ?_⟩
    obtain ⟨h1, h2⟩ := List.nodup_cons.1 h
    exact insertLit_sorted (ih.2 h2) fun h => h1 (ih.1.mem_iff.1 h)

/-- The hypothesis of the second part is met, and the order changes. -/
example : [Lit.pos 3, Lit.negOf 1, Lit.pos 1, Lit.pos 0].Nodup ∧
    sortLits [Lit.pos 3, Lit.negOf 1, Lit.pos 1, Lit.pos 0] = [Lit.pos 0, Lit.pos 1, Lit.negOf 1, Lit.pos 3] := by decide

/-- C46: filtering the base assumptions from a core of the clauses leaves a core of the clauses and the base assumptions. If
the base assumptions are sorted and come first in the core in their order, they are all removed. -/
theorem filterBase_core {db : List Clause} {base core : List Lit} (hc : CoreOf db [] core) :
    CoreOf db base (filterBase base core) ∧ (∀ l ∈ filterBase base core, l ∈ core) ∧
    (SortedLits base → ∀ c1 c2, core = c1 ++ c2 → (c1.map Lit.not).Sublist base → ∀ l ∈ filterBase base core, l ∈ c2) := by
  refine ⟨fun m hm hb => ?_, filterBase_sub base core, fun hs c1 c2 he hsub l hl => ?_⟩
  · obtain ⟨l, hl, ht⟩ := hc m hm (by simp)
    rcases filterBase_lost base core l hl with h1 | h1
    · exact ⟨l, h1, ht⟩
    · exact absurd ht (litTrue_not.1 (hb _ h1))
  · subst he
    unfold filterBase at hl
    split at hl
    · next hb =>
      have hb' : base = [] := by simpa using hb
      rw [hb'] at hsub
      have : c1 = [] := by simpa using hsub
      rw [this] at hl
      simpa using hl
    · exact dropBase_sorted c1 c2 base (sortedLits_litLt hs) hsub l hl

/-- Solver with the clauses `b0 ∧ b1 → x`, where `x` is variable 2. -/
def Example.implies : Instance where
  clauses := [[(Lit.pos 0).not, (Lit.pos 1).not, Lit.pos 2]]
  objs := [.weighted 0 [(Lit.pos 2, 1), (Lit.pos 3, 1)] 0 0]
  vm := ⟨4, 3, 3⟩

/-- Minimizes a core. -/
def Example.minimize (inst : Instance) (core base : List Lit) : Option (List Lit) :=
  (Alg.pMinimal.new (P := RefTot.RefTree 1) (C := RefTot.RefTree 0) inst defaultBlockingClause
    { coreMinimization := true }).bind fun s =>
    match (minimizeCore core base refEnv s).1 with
    | .ok core' => some core'
    | .error _ => none

theorem refEnv_orderedCores (debug : Bool) : OrderedCores (refEnv debug) := by
  intro t lim db as core h
  simp only [refEnv, refOracle] at h
  split at h
  · simp at h
  · simp only [Answer.unsat.injEq] at h
    subst h
    simp [List.map_map, Function.comp_def, lit_not_not]

/-- The hypotheses are met: with both base assumptions the core of two literals becomes one of a single literal. -/
example : CoreOf Example.implies.clauses [Lit.pos 0, Lit.pos 1] [Lit.pos 2, Lit.pos 3] ∧
    SortedLits [Lit.pos 0, Lit.pos 1] ∧ CorrectOracle refEnv ∧ OrderedCores refEnv ∧
    Example.minimize Example.implies [Lit.pos 2, Lit.pos 3] [Lit.pos 0, Lit.pos 1] = some [Lit.pos 2] := by
  refine ⟨?_, by unfold SortedLits; decide, refEnv_correct _, refEnv_orderedCores _, by decide +kernel⟩
  intro m hm hb
  obtain ⟨l, hl, ht⟩ := hm _ (List.mem_cons_self ..)
  have h0 := hb (Lit.pos 0) (by simp)
  have h1 := hb (Lit.pos 1) (by simp)
  simp only [List.mem_cons, List.not_mem_nil, or_false] at hl
  rcases hl with rfl | rfl | rfl
  · exact absurd h0 (litTrue_not.1 ht)
  · exact absurd h1 (litTrue_not.1 ht)
  · exact ⟨_, by simp, ht⟩

/-- If the base assumptions are not sorted, a base assumption may be left in the core: `minimize_core` and `trim_core` are
given the base assumptions as they are, not those sorted by `oll`. No caller uses base assumptions. -/
theorem minimizeCore_unsorted_counterexample :
    Example.minimize Example.implies [Lit.pos 2, Lit.pos 3] [Lit.pos 1, Lit.pos 0] =
      some [(Lit.pos 0).not, Lit.pos 2] := by decide +kernel

end Scuttle
