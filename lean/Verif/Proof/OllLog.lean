import Verif.SpecOll
import Verif.Proof.Reform
import Verif.Proof.ProofReif

/-!
# Proof logging of core-guided search
-/
set_option linter.unusedSectionVars false

namespace Scuttle

open Spec

variable {T : TotView} {root n : Nat}

/-! ## Arithmetic -/

/-- How many literals are true. -/
def valSum (ls : List Lit) (ρ : AnyVar → Bool) : Int := (ls.map fun l => (toAxm l).val ρ).sum

theorem valSum_append (a b : List Lit) (ρ : AnyVar → Bool) : valSum (a ++ b) ρ = valSum a ρ + valSum b ρ := by
  simp [valSum]

theorem valSum_single (l : Lit) (ρ : AnyVar → Bool) : valSum [l] ρ = (toAxm l).val ρ := by simp [valSum]

theorem valSum_perm {a b : List Lit} (h : a.Perm b) (ρ : AnyVar → Bool) : valSum a ρ = valSum b ρ :=
  (h.map _).sum_eq

theorem linear_ones (ls : List Lit) (ρ : AnyVar → Bool) :
    (linear (solverAsg ρ) (ls.map fun l => (l, 1)) : Int) = valSum ls ρ := by
  rw [← sum_axm]
  simp [valSum, Function.comp_def]

theorem leafSum_eq (T : TotView) (root : Nat) (ρ : AnyVar → Bool) : (leafSum T root ρ : Int) = valSum (T.leafs root) ρ :=
  linear_ones _ _

theorem sum_scaled (a : Int) (ls : List Lit) (ρ : AnyVar → Bool) :
    ((ls.map fun l => (a, toAxm l)).map fun p => p.1 * p.2.val ρ).sum = a * valSum ls ρ := by
  induction ls with
  | nil => simp [valSum]
  | cons l ls ih =>
    simp only [List.map_cons, List.sum_cons, valSum] at ih ⊢
    rw [ih]; ring

theorem sum_scaled_not (a : Int) (ls : List Lit) (ρ : AnyVar → Bool) :
    ((ls.map fun l => (a, toAxm l.not)).map fun p => p.1 * p.2.val ρ).sum = a * (ls.length - valSum ls ρ) := by
  induction ls with
  | nil => simp [valSum]
  | cons l ls ih =>
    simp only [List.map_cons, List.sum_cons, valSum, List.length_cons, toAxm_not_val] at ih ⊢
    rw [ih]; push_cast; ring

theorem outs_length (T : TotView) (root v k : Nat) : (outs T root v k).length = k := by simp [outs]

theorem outs_succ (T : TotView) (root v k : Nat) : outs T root v (k + 1) = outs T root v k ++ [T.out root (v + k)] := by
  unfold outs
  rw [List.range'_concat, List.map_append]
  simp

theorem outs_append (T : TotView) (root v a b : Nat) : outs T root v a ++ outs T root (v + a) b = outs T root v (a + b) := by
  unfold outs
  rw [← List.map_append, List.range'_append_1]

theorem slack_coreCon (hn : 1 ≤ n) (ρ : AnyVar → Bool) :
    (coreCon T root n).slack ρ = leafSum T root ρ - valSum (outs T root 2 (n - 1)) ρ - 1 := by
  rw [LbCon.slack_def]
  unfold coreCon
  simp only [List.map_append, List.sum_append]
  rw [sum_scaled, sum_scaled_not, leafSum_eq, outs_length]
  push_cast [Nat.cast_sub hn]
  ring

theorem slack_clauseCon (ls : List Lit) (ρ : AnyVar → Bool) : (clauseCon ls).slack ρ = valSum ls ρ - 1 := by
  unfold clauseCon
  rw [LbCon.slack_clause]
  simp [valSum, Function.comp_def]

theorem ceilDiv_self {n : Nat} (hn : 0 < n) : LbCon.ceilDiv (n : Int) n = 1 :=
  le_antisymm (LbCon.ceilDiv_le hn (by simp)) (ceilDiv_pos (by omega) hn)

/-- Bringing in the next output. -/
theorem extend_same {c d : LbCon AnyVar} (hn : 1 ≤ n) (hc : LbCon.Same c (coreCon T root n))
    (hd : OnlyIfDef d (leafSum T root) (n + 1) (toAxm (T.out root (n + 1))))
    (hv : ((T.leafs root ++ outs T root 2 n).map Lit.var).Nodup) :
    LbCon.Same (((c.mul n).add d).div (n + 1)) (coreCon T root (n + 1)) := by
  obtain ⟨m, rfl⟩ : ∃ m, n = m + 1 := ⟨n - 1, by omega⟩
  have hout : outs T root 2 (m + 1) = outs T root 2 m ++ [T.out root (m + 2)] := by
    rw [outs_succ, show 2 + m = m + 2 by omega]
  let N : LbCon AnyVar := ⟨((T.leafs root).map fun l => (((m + 2 : Nat) : Int), toAxm l)) ++
    ((outs T root 2 m).map fun o => (((m + 1 : Nat) : Int), toAxm o.not)) ++ [(((m + 2 : Nat) : Int), toAxm (T.out root (m + 2)).not)],
    (m + 1) * (m + 1) + (m + 2)⟩
  have hN : N.Normal := by
    constructor
    · have : N.lits.map (fun p => p.2.var) = ((T.leafs root ++ outs T root 2 (m + 1)).map Lit.var).map AnyVar.solver := by
        rw [hout]
        simp [N, Function.comp_def, toAxm, Lit.not]
      rw [this]
      exact hv.map fun a b h => AnyVar.solver.inj h
    · intro p hp
      simp only [N, List.mem_append, List.mem_map, List.mem_singleton] at hp
      rcases hp with (⟨_, _, rfl⟩ | ⟨_, _, rfl⟩) | rfl <;> simp <;> omega
  have hs : LbCon.Same ((c.mul (m + 1)).add d) N := fun ρ => by
    rw [LbCon.slack_add, LbCon.slack_mul, hc ρ, hd ρ, slack_coreCon (by omega), LbCon.slack_def]
    simp only [N, List.map_append, List.sum_append, List.map_cons, List.map_nil, List.sum_cons, List.sum_nil]
    rw [sum_scaled, sum_scaled_not, leafSum_eq, outs_length, toAxm_not_val]
    simp only [Nat.add_sub_cancel]
    push_cast
    ring
  refine (hs.div _).trans ((hN.div _).trans ?_)
  have h1 : LbCon.ceilDiv (((m + 2 : Nat) : Int)) (m + 1 + 1) = 1 := ceilDiv_self (n := m + 2) (by omega)
  have h2 : LbCon.ceilDiv (((m + 1 : Nat) : Int)) (m + 1 + 1) = 1 :=
    le_antisymm (LbCon.ceilDiv_le (by omega) (by push_cast; omega)) (ceilDiv_pos (by omega) (by omega))
  have h3 : LbCon.ceilDiv (((m : Int) + 1) * (m + 1) + (m + 2)) (m + 1 + 1) = m + 2 := by
    refine le_antisymm (LbCon.ceilDiv_le (by omega) (by push_cast; nlinarith)) ?_
    have := LbCon.le_ceilDiv (((m : Int) + 1) * (m + 1) + (m + 2)) (n := m + 1 + 1) (by omega)
    by_contra hlt
    have h4 : LbCon.ceilDiv (((m : Int) + 1) * (m + 1) + (m + 2)) (m + 1 + 1) ≤ m + 1 := by omega
    have h5 : ((m + 1 + 1 : Nat) : Int) * LbCon.ceilDiv (((m : Int) + 1) * (m + 1) + (m + 2)) (m + 1 + 1) ≤
        ((m + 1 + 1 : Nat) : Int) * (m + 1) := Int.mul_le_mul_of_nonneg_left h4 (by omega)
    push_cast at this h5
    nlinarith
  unfold coreCon
  simp only [Nat.add_sub_cancel]
  rw [hout]
  simp only [N, List.map_append, List.map_map, List.map_cons, List.map_nil, Function.comp_def, h1, h2, h3]
  rw [List.append_assoc]
  push_cast
  exact fun ρ => by simp only [LbCon.slack_def]; ring_nf

/-! ## Lines -/

variable {ord : (AnyVar → Bool) → (AnyVar → Bool) → Prop}

theorem Spec.WritesPf.refl (pf : Pf AnyVar) : WritesPf ord pf pf := ⟨[], by simp, trivial, rfl⟩

theorem Spec.WritesPf.trans {pf pf' pf'' : Pf AnyVar} (h : WritesPf ord pf pf') (h' : WritesPf ord pf' pf'') :
    WritesPf ord pf pf'' := by
  obtain ⟨n, h1, h2, h3⟩ := h
  obtain ⟨n', h4, h5, h6⟩ := h'
  refine ⟨n ++ n', by rw [h4, h1, List.append_assoc], accepted_append' h2 (by rw [← h3]; exact h5), ?_⟩
  rw [h6, h3, List.foldl_append]

theorem Spec.WritesPf.write {pf : Pf AnyVar} {s : ProofStep AnyVar} (h : StepOk ord pf.db s) : WritesPf ord pf (pf.write s) :=
  ⟨[s], rfl, ⟨h, trivial⟩, rfl⟩

theorem Spec.WritesPf.writeAll : ∀ {ss : List (ProofStep AnyVar)} {pf : Pf AnyVar}, Accepted ord pf.db ss →
    WritesPf ord pf (pf.writeAll ss)
  | [], pf, _ => WritesPf.refl pf
  | s :: _, pf, h => (WritesPf.write h.1).trans (WritesPf.writeAll (pf := pf.write s) h.2)

theorem ConDb.delete_length (db : ConDb AnyVar) (ids : List Nat) : (db.delete ids).length = db.length := by
  simp [ConDb.delete]

theorem get_write_pol {pf : Pf AnyVar} {o : Ops} {c : LbCon AnyVar} (h : o.eval pf.db = some c) :
    (pf.write (.pol o)).db.get (pf.db.length + 1) = some c := by
  show (ConDb.get (pf.db ++ [o.eval pf.db]) _) = _
  rw [ConDb.get_new, h]

theorem get_write_pol_old {pf : Pf AnyVar} {o : Ops} {i : Nat} (h : (pf.db.get i).isSome) :
    (pf.write (.pol o)).db.get i = pf.db.get i := by
  obtain ⟨c, hc⟩ := Option.isSome_iff_exists.1 h
  rw [hc]
  exact ConDb.get_append _ hc

/-! ## Sums -/

/-- Slack of the constraint with an id. -/
def slackAt (db : ConDb AnyVar) (i : Nat) (ρ : AnyVar → Bool) : Int := ((db.get i).map fun c => c.slack ρ).getD 0

/-- Weighted sum of slacks. -/
def trackSum (db : ConDb AnyVar) (l : List (Nat × Nat)) (ρ : AnyVar → Bool) : Int :=
  (l.map fun p => (p.2 : Int) * slackAt db p.1 ρ).sum

theorem slackAt_some {db : ConDb AnyVar} {i : Nat} {c : LbCon AnyVar} (h : db.get i = some c) (ρ : AnyVar → Bool) :
    slackAt db i ρ = c.slack ρ := by simp [slackAt, h]

theorem trackSum_perm {db : ConDb AnyVar} {l l' : List (Nat × Nat)} (h : l.Perm l') (ρ : AnyVar → Bool) :
    trackSum db l ρ = trackSum db l' ρ := (h.map _).sum_eq

theorem trackSum_cons (db : ConDb AnyVar) (p : Nat × Nat) (l : List (Nat × Nat)) (ρ : AnyVar → Bool) :
    trackSum db (p :: l) ρ = p.2 * slackAt db p.1 ρ + trackSum db l ρ := by simp [trackSum]

theorem trackSum_append (db : ConDb AnyVar) (l l' : List (Nat × Nat)) (ρ : AnyVar → Bool) :
    trackSum db (l ++ l') ρ = trackSum db l ρ + trackSum db l' ρ := by simp [trackSum]

theorem trackSum_congr {db db' : ConDb AnyVar} {l : List (Nat × Nat)} (h : ∀ p ∈ l, db'.get p.1 = db.get p.1)
    (ρ : AnyVar → Bool) : trackSum db' l ρ = trackSum db l ρ := by
  unfold trackSum
  congr 1
  refine List.map_congr_left fun p hp => ?_
  rw [slackAt, slackAt, h p hp]

theorem axmVal (ρ : AnyVar → Bool) (l : Lit) : (toAxm l).val ρ = if LitTrue (solverAsg ρ) l then 1 else 0 := toAxm_val ρ l

theorem linear_append' (a : Asg) (l l' : List (Lit × Nat)) : linear a (l ++ l') = linear a l + linear a l' := by
  induction l with
  | nil => simp [linear]
  | cons p l ih => simp only [List.cons_append, linear, ih]; omega

/-- Relaxing a literal lowers the sum. -/
theorem relaxMap_spec {l : Lit} {w r : Nat} {m m' : List (Lit × Nat)} (hn : (m.map Prod.fst).Nodup)
    (h : relaxMap l w m = some (m', r)) : m'.map Prod.fst = m.map Prod.fst ∧ l ∈ m.map Prod.fst ∧
      ∀ ρ, (linear (solverAsg ρ) m : Int) = linear (solverAsg ρ) m' + w * (toAxm l).val ρ := by
  unfold relaxMap at h
  cases hg : mapGet l m with
  | none => rw [hg] at h; cases h
  | some lw =>
    rw [hg] at h
    simp only at h
    split at h
    · cases h
    · rename_i hle
      simp only [Option.some.injEq, Prod.mk.injEq] at h
      obtain ⟨rfl, -⟩ := h
      refine ⟨?_, List.mem_map.2 ⟨_, mapGet_mem hg, rfl⟩, fun ρ => ?_⟩
      · rw [List.map_map]
        refine List.map_congr_left fun p _ => ?_
        simp only [Function.comp]
        split <;> rfl
      · induction m with
        | nil => cases hg
        | cons p m ih =>
          obtain ⟨k, v⟩ := p
          simp only [List.map_cons, List.nodup_cons] at hn
          simp only [mapGet] at hg
          simp only [List.map_cons, linear]
          by_cases hk : k = l
          · subst hk
            rw [if_pos rfl] at hg
            cases hg
            have : m.map (fun p => if p.1 = k then (p.1, p.2 - w) else p) = m := by
              conv_rhs => rw [← List.map_id m]
              refine List.map_congr_left fun p hp => ?_
              rw [if_neg (fun he => hn.1 (List.mem_map.2 ⟨p, hp, he⟩))]
              rfl
            rw [this, axmVal]
            simp only [if_true]
            split
            · push_cast [Nat.cast_sub (Nat.le_of_not_lt hle)]; ring
            · simp
          · rw [if_neg hk] at hg
            have := ih hn.2 hg
            simp only [if_neg hk]
            push_cast at this ⊢
            rw [this]; ring

theorem perm_mapRemove {β : Type} {l : Lit} {rd : β} {refs : List (Lit × β)} (hn : (refs.map Prod.fst).Nodup)
    (hm : (l, rd) ∈ refs) : refs.Perm ((l, rd) :: mapRemove l refs) := by
  induction refs with
  | nil => cases hm
  | cons p refs ih =>
    simp only [List.map_cons, List.nodup_cons] at hn
    unfold mapRemove
    rcases List.mem_cons.1 hm with rfl | hm
    · rw [List.filter_cons_of_neg (by simp)]
      refine List.Perm.cons _ ?_
      rw [List.filter_eq_self.2]
      intro q hq
      simp only [ne_eq, decide_not, Bool.not_eq_eq_eq_not, Bool.not_true, decide_eq_false_iff_not]
      intro he
      exact hn.1 (List.mem_map.2 ⟨q, hq, he⟩)
    · have hp : p.1 ≠ l := fun he => hn.1 (List.mem_map.2 ⟨_, hm, he.symm⟩)
      rw [List.filter_cons_of_pos (by simp [hp])]
      exact ((ih hn.2 hm).cons p).trans (List.Perm.swap _ _ _)

theorem perm_snoc_mid {α : Type} (A R C : List α) (x : α) : (A ++ (R ++ [x]) ++ C).Perm (x :: (A ++ R ++ C)) := by
  rw [show A ++ (R ++ [x]) ++ C = (A ++ R) ++ x :: C by simp]
  exact List.perm_middle

theorem valSum_nonneg (ls : List Lit) (ρ : AnyVar → Bool) : 0 ≤ valSum ls ρ := by
  induction ls with
  | nil => simp [valSum]
  | cons l ls ih =>
    simp only [valSum, List.map_cons, List.sum_cons] at ih ⊢
    have := val_cases (toAxm l) ρ
    omega

theorem coreCon_zero {root : Nat} {ρ : AnyVar → Bool} (hlen : (T.leafs root).length = T.len root) (hpos : 1 ≤ T.len root)
    (ho : ∀ v, 2 ≤ v → v ≤ T.len root → ((toAxm (T.out root v)).val ρ = 1 ↔ v ≤ leafSum T root ρ))
    (h1 : 1 ≤ leafSum T root ρ) : (coreCon T root (T.len root)).slack ρ = 0 := by
  rw [slack_coreCon hpos]
  have hle : leafSum T root ρ ≤ T.len root := by
    have h2 := leafSum_eq T root ρ
    have h3 : valSum (T.leafs root) ρ ≤ (T.leafs root).length := by
      generalize T.leafs root = ls
      induction ls with
      | nil => simp [valSum]
      | cons l ls ih =>
        simp only [valSum, List.map_cons, List.sum_cons, List.length_cons] at ih ⊢
        have := val_cases (toAxm l) ρ
        push_cast
        omega
    rw [hlen] at h3
    omega
  have key : ∀ k, k + 1 ≤ T.len root → valSum (outs T root 2 k) ρ = ((min (k + 1) (leafSum T root ρ) : Nat) : Int) - 1 := by
    intro k
    induction k with
    | zero => intro _; simp [outs, valSum]; omega
    | succ k ih =>
      intro hk
      rw [outs_succ, valSum_append, valSum_single, ih (by omega)]
      have h4 := ho (2 + k) (by omega) (by omega)
      rcases val_cases (toAxm (T.out root (2 + k))) ρ with h5 | h5
      · have : ¬ 2 + k ≤ leafSum T root ρ := fun h => by rw [h4.2 h] at h5; omega
        rw [h5]; omega
      · have := h4.1 h5
        rw [h5]; omega
  rw [key _ (by omega)]
  omega

/-- A constraint that holds with equality if the outputs are right. -/
def Tight (T : TotView) (c : LbCon AnyVar) : Prop := ∀ ρ, OutputsRight T ρ → c.Holds ρ → c.slack ρ = 0

/-- A constraint for a core implies that some leaf is true. -/
theorem leaf_of_holds {c : LbCon AnyVar} {ρ : AnyVar → Bool} (hn : 1 ≤ n) (hc : LbCon.Same c (coreCon T root n))
    (h : c.Holds ρ) : 1 ≤ leafSum T root ρ := by
  have h1 := (LbCon.holds_iff _ _).1 h
  rw [hc ρ, slack_coreCon hn] at h1
  have := valSum_nonneg (outs T root 2 (n - 1)) ρ
  omega

theorem tight_core {c : LbCon AnyVar} (hlen : (T.leafs root).length = T.len root) (hpos : 1 ≤ T.len root)
    (hc : LbCon.Same c (coreCon T root (T.len root))) : Tight T c := fun ρ hρ h => by
  rw [hc ρ]
  exact coreCon_zero hlen hpos (hρ root) (leaf_of_holds hpos hc h)

theorem tight_unit {c : LbCon AnyVar} {l : Lit} (hc : LbCon.Same c (clauseCon [l])) : Tight T c := fun ρ _ h => by
  have h1 := (LbCon.holds_iff _ _).1 h
  rw [hc ρ, slack_clauseCon, valSum_single] at *
  have := val_cases (toAxm l) ρ
  omega

/-! ## The invariant -/

/-- What holds during `oll`; `extra` is what is missing while a core is being handled. -/
structure OllInv (T : TotView) (obj : Objective) (st : OllLog) (extra : (AnyVar → Bool) → Int) : Prop where
  keys : (st.inactives.map Prod.fst).Nodup
  ids : ((tracked st).map Prod.fst).Nodup
  live : ∀ p ∈ tracked st, (st.proof.db.get p.1).isSome
  refKeys : (st.refs.map Prod.fst).Nodup
  roots : (st.refs.map fun p => p.2.root).Nodup
  range : ∀ p ∈ st.refs, 1 ≤ p.2.oidx ∧ p.2.oidx + 1 ≤ T.len p.2.root ∧ p.1 = T.out p.2.root (p.2.oidx + 1)
  con : ∀ p ∈ st.refs, ∃ c, st.proof.db.get p.2.proofId = some c ∧ LbCon.Same c (coreCon T p.2.root (p.2.oidx + 1))
  unused : ∀ p ∈ st.refs, ∀ v, p.2.oidx + 2 ≤ v → v ≤ T.len p.2.root → T.out p.2.root v ∉ st.inactives.map Prod.fst
  core : ∀ c ∈ st.cores, 1 < c.lits.length ∧ ∃ k, st.proof.db.get c.proofId = some k ∧ LbCon.Same k (clauseCon c.lits)
  sum : ∀ ρ, (objSum obj ρ : Int) = linear (solverAsg ρ) st.inactives + st.offset + trackSum st.proof.db (tracked st) ρ +
    extra ρ
  leafs : ∀ p ∈ st.refs, (T.leafs p.2.root).length = T.len p.2.root
  done : ∀ p ∈ st.reformIds, ∃ c, st.proof.db.get p.1 = some c ∧ Tight T c

theorem tracked_ref {st : OllLog} {p : Lit × LogRef} (h : p ∈ st.refs) : (p.2.proofId, p.2.totWeight) ∈ tracked st :=
  List.mem_append_left _ (List.mem_append_left _ (List.mem_map.2 ⟨p, h, rfl⟩))

theorem tracked_done {st : OllLog} {p : Nat × Nat} (h : p ∈ st.reformIds) : p ∈ tracked st :=
  List.mem_append_left _ (List.mem_append_right _ h)

theorem tracked_core {st : OllLog} {c : LogCore} (h : c ∈ st.cores) : (c.proofId, c.weight) ∈ tracked st :=
  List.mem_append_right _ (List.mem_map.2 ⟨c, h, rfl⟩)

theorem Spec.TotContract.upTo (h : TotContract T) (root : Nat) {k : Nat} (hk : k ≤ T.len root - 1) :
    ((T.leafs root ++ outs T root 2 k).map Lit.var).Nodup := by
  refine (h.distinct root).sublist (List.Sublist.map _ (List.Sublist.append (List.Sublist.refl _) ?_))
  have := outs_append T root 2 k (T.len root - 1 - k)
  rw [show k + (T.len root - 1 - k) = T.len root - 1 by omega] at this
  rw [← this]
  exact List.sublist_append_left _ _

/-- What a step of the loop over a core keeps. -/
structure RelaxFrame (ord : (AnyVar → Bool) → (AnyVar → Bool) → Prop) (st st' : OllLog) : Prop where
  writes : WritesPf ord st.proof st'.proof
  offset : st'.offset = st.offset
  cores : st'.cores = st.cores
  keys : ∀ x ∈ st.inactives.map Prod.fst, x ∈ st'.inactives.map Prod.fst
  refs : ∀ p ∈ st'.refs, p ∈ st.refs ∨ p.1 ∉ st.inactives.map Prod.fst
  others : ∀ d c, st.proof.db.get d = some c → d ∉ (tracked st).map Prod.fst →
    st'.proof.db.get d = some c ∧ d ∉ (tracked st').map Prod.fst

theorem RelaxFrame.trans {st st' st'' : OllLog} (h : RelaxFrame ord st st') (h' : RelaxFrame ord st' st'') :
    RelaxFrame ord st st'' where
  writes := h.writes.trans h'.writes
  offset := h'.offset.trans h.offset
  cores := h'.cores.trans h.cores
  keys := fun x hx => h'.keys x (h.keys x hx)
  refs := fun p hp => by
    rcases h'.refs p hp with hp | hp
    · exact h.refs p hp
    · exact Or.inr fun hx => hp (h.keys _ hx)
  others := fun d c hd hn => by
    obtain ⟨h1, h2⟩ := h.others d c hd hn
    exact h'.others d c h1 h2

theorem logRelaxLit_spec {obj : Objective} {st st' : OllLog} {extra : (AnyVar → Bool) → Int} {cw : Nat} {l : Lit}
    (hT : TotContract T) (hi : OllInv T obj st extra)
    (hd : ∀ p ∈ st.refs, p.1 = l → p.2.oidx + 1 < T.len p.2.root →
      OutputDefined T st.proof.db ((tracked st).map Prod.fst) p.2.root (p.2.oidx + 2))
    (h : logRelaxLit T cw st l = some st') :
    OllInv T obj st' (fun ρ => extra ρ + cw * (toAxm l).val ρ) ∧ RelaxFrame ord st st' := by
  unfold logRelaxLit at h
  obtain ⟨⟨i, w⟩, hr, h⟩ := Option.bind_eq_some_iff.1 h
  obtain ⟨hkeys, hl, hsum⟩ := relaxMap_spec hi.keys hr
  simp only at h
  have hplain : OllInv T obj { st with inactives := i } (fun ρ => extra ρ + cw * (toAxm l).val ρ) ∧
      RelaxFrame ord st { st with inactives := i } := by
    refine ⟨⟨by rw [hkeys]; exact hi.keys, hi.ids, hi.live, hi.refKeys, hi.roots, hi.range, hi.con,
      by rw [hkeys]; exact hi.unused, hi.core, fun ρ => ?_, hi.leafs, hi.done⟩,
      ⟨WritesPf.refl _, rfl, rfl, fun x hx => by rw [hkeys]; exact hx, fun p hp => Or.inl hp, fun d c h1 h2 => ⟨h1, h2⟩⟩⟩
    have := hi.sum ρ
    have h2 := hsum ρ
    show (objSum obj ρ : Int) = linear (solverAsg ρ) i + st.offset + trackSum st.proof.db (tracked st) ρ + _
    rw [this, h2]; ring
  cases hg : mapGet l st.refs with
  | none =>
    rw [hg] at h
    simp only [Option.some.injEq] at h
    subst h
    exact hplain
  | some rd =>
    rw [hg] at h
    simp only at h
    have hm := mapGet_mem hg
    obtain ⟨ho1, ho2, ho3⟩ := hi.range _ hm
    simp only at ho1 ho2 ho3
    have hperm := perm_mapRemove hi.refKeys hm
    split at h
    · cases h
      exact hplain
    · have hperm2 : (tracked st).Perm ((rd.proofId, rd.totWeight) :: ((mapRemove l st.refs).map
          (fun p => (p.2.proofId, p.2.totWeight)) ++ st.reformIds ++ st.cores.map fun c => (c.proofId, c.weight))) := by
        unfold tracked
        have := ((hperm.map fun p => (p.2.proofId, p.2.totWeight)).append_right st.reformIds).append_right
          (st.cores.map fun c => (c.proofId, c.weight))
        simpa using this
      have hsub : ∀ p ∈ mapRemove l st.refs, p ∈ st.refs := fun p hp => (List.mem_filter.1 hp).1
      split at h
      · rename_i hge
        cases h
        let st₁ : OllLog := ⟨st.proof, i, mapRemove l st.refs, st.offset,
          st.reformIds ++ [(rd.proofId, rd.totWeight)], st.cores⟩
        have hperm3 : (tracked st₁).Perm (tracked st) := by
          refine List.Perm.trans ?_ hperm2.symm
          exact perm_snoc_mid _ _ _ _
        refine ⟨⟨by rw [hkeys]; exact hi.keys, (hperm3.map Prod.fst).nodup_iff.2 hi.ids,
          fun p hp => hi.live p (hperm3.mem_iff.1 hp),
          hi.refKeys.sublist (List.filter_sublist.map _), hi.roots.sublist (List.filter_sublist.map _),
          fun p hp => hi.range p (hsub p hp), fun p hp => hi.con p (hsub p hp),
          fun p hp => by rw [hkeys]; exact hi.unused p (hsub p hp), hi.core, fun ρ => ?_,
          fun p hp => hi.leafs p (hsub p hp), fun p hp => ?_⟩,
          ⟨WritesPf.refl _, rfl, rfl, fun x hx => by rw [hkeys]; exact hx, fun p hp => Or.inl (hsub p hp),
            fun d c h1 h2 => ⟨h1, fun hx => h2 ((hperm3.map Prod.fst).mem_iff.1 hx)⟩⟩⟩
        · have h1 := hi.sum ρ
          have h2 := hsum ρ
          have h3 := trackSum_perm (db := st.proof.db) hperm3 ρ
          simp only at h3 ⊢
          rw [h3, h1, h2]; ring
        · rcases List.mem_append.1 hp with hp | hp
          · exact hi.done p hp
          · cases List.mem_singleton.1 hp
            obtain ⟨k, k1, k2⟩ := hi.con _ hm
            refine ⟨k, k1, tight_core (root := rd.root) (hi.leafs _ hm) (by omega) ?_⟩
            rw [show T.len rd.root = rd.oidx + 1 by omega]
            exact k2
      · rename_i hw hlen
        obtain ⟨sem, hsem, h⟩ := Option.bind_eq_some_iff.1 h
        obtain ⟨only, honly, h⟩ := Option.bind_eq_some_iff.1 h
        simp only [Option.some.injEq] at h
        obtain ⟨sem', d, c, q1, q2, q3, q4, q5⟩ := hd _ hm rfl (show rd.oidx + 1 < T.len rd.root by omega)
        simp only at q1 q2 q5
        rw [hsem] at q1; cases q1
        rw [honly] at q2; cases q2
        obtain ⟨k, k1, k2⟩ := hi.con _ hm
        simp only at k1 k2
        generalize hops : extendOps (.id (.abs rd.proofId)) (rd.oidx + 1) only = ops at h
        let c' := ((k.mul (rd.oidx + 1)).add c).div (rd.oidx + 1 + 1)
        have heval : ops.eval st.proof.db = some c' := by
          rw [← hops]
          simp only [extendOps, Ops.eval, ConDb.find_abs, k1, q4, Option.map_some, Option.bind_eq_bind, Option.bind_some]
          rfl
        have hsame : LbCon.Same c' (coreCon T rd.root (rd.oidx + 2)) :=
          extend_same (n := rd.oidx + 1) (by omega) k2 q5 (hT.upTo rd.root (by omega))
        have hpid := ConDb.get_lt k1
        have hnew : T.out rd.root (rd.oidx + 2) ∉ st.inactives.map Prod.fst :=
          hi.unused _ hm (rd.oidx + 2) (le_refl _) (by show rd.oidx + 2 ≤ T.len rd.root; omega)
        have hnewi : T.out rd.root (rd.oidx + 2) ∉ i.map Prod.fst := by rw [hkeys]; exact hnew
        have hroots : ∀ p ∈ mapRemove l st.refs, p.2.root ≠ rd.root := by
          intro p hp he
          have := ((hperm.map fun p => p.2.root).nodup_iff.1 hi.roots)
          simp only [List.map_cons, List.nodup_cons] at this
          exact this.1 (List.mem_map.2 ⟨p, hp, he⟩)
        have hnewr : T.out rd.root (rd.oidx + 2) ∉ (mapRemove l st.refs).map Prod.fst := by
          intro hx
          obtain ⟨p, hp, he⟩ := List.mem_map.1 hx
          obtain ⟨p1, p2, p3⟩ := hi.range p (hsub p hp)
          rw [p3] at he
          exact hroots p hp (hT.injective _ _ _ _ (by omega) p2 (by omega) (by omega) he).1
        let st₁ : OllLog := { st with
          proof := (st.proof.write (.pol ops)).write (.del [rd.proofId] [])
          inactives := mapInsert (T.out rd.root (rd.oidx + 2)) rd.totWeight i
          refs := mapInsert (T.out rd.root (rd.oidx + 2)) { rd with oidx := rd.oidx + 1, proofId := st.proof.db.length + 1 }
            (mapRemove l st.refs) }
        have hst : st' = st₁ := by rw [← h]; rfl
        have hin : st₁.inactives = i ++ [(T.out rd.root (rd.oidx + 2), rd.totWeight)] := mapInsert_new _ _ _ hnewi
        have hrefs : st₁.refs = mapRemove l st.refs ++
            [(T.out rd.root (rd.oidx + 2), { rd with oidx := rd.oidx + 1, proofId := st.proof.db.length + 1 })] :=
          mapInsert_new _ _ _ hnewr
        have hold : ∀ j, j ≠ rd.proofId → (st.proof.db.get j).isSome → st₁.proof.db.get j = st.proof.db.get j := by
          intro j hj hjs
          show ConDb.get (ConDb.delete (st.proof.write (.pol ops)).db [rd.proofId]) j = _
          rw [ConDb.get_delete (by simpa using hj), get_write_pol_old hjs]
        have hfresh : st₁.proof.db.get (st.proof.db.length + 1) = some c' := by
          show ConDb.get (ConDb.delete (st.proof.write (.pol ops)).db [rd.proofId]) _ = _
          rw [ConDb.get_delete (by simp; omega), get_write_pol heval]
        have hperm3 : (tracked st₁).Perm ((st.proof.db.length + 1, rd.totWeight) :: ((mapRemove l st.refs).map
          (fun p => (p.2.proofId, p.2.totWeight)) ++ st.reformIds ++ st.cores.map fun c => (c.proofId, c.weight))) := by
          unfold tracked
          rw [hrefs]
          simp only [List.map_append, List.map_cons, List.map_nil, List.append_assoc, List.singleton_append]
          exact List.perm_middle
        generalize hrest : (mapRemove l st.refs).map (fun p => (p.2.proofId, p.2.totWeight)) ++ st.reformIds ++
          st.cores.map (fun c => (c.proofId, c.weight)) = rest at hperm2 hperm3
        have hids := ((hperm2.map Prod.fst).nodup_iff.1 hi.ids)
        simp only [List.map_cons, List.nodup_cons] at hids
        have hrl : ∀ p ∈ rest, (st.proof.db.get p.1).isSome ∧ p.1 ≠ rd.proofId := fun p hp =>
          ⟨hi.live p (hperm2.mem_iff.2 (List.mem_cons_of_mem _ hp)),
            fun he => hids.1 (List.mem_map.2 ⟨p, hp, he⟩)⟩
        have hrle : ∀ p ∈ rest, p.1 ≤ st.proof.db.length := fun p hp => by
          obtain ⟨c, hc⟩ := Option.isSome_iff_exists.1 (hrl p hp).1
          exact (ConDb.get_lt hc).2
        have hrefrest : ∀ p ∈ mapRemove l st.refs, (p.2.proofId, p.2.totWeight) ∈ rest := fun p hp => by
          rw [← hrest]
          exact List.mem_append_left _ (List.mem_append_left _ (List.mem_map.2 ⟨p, hp, rfl⟩))
        have hcorerest : ∀ c ∈ st.cores, (c.proofId, c.weight) ∈ rest := fun c hc => by
          rw [← hrest]
          exact List.mem_append_right _ (List.mem_map.2 ⟨c, hc, rfl⟩)
        have hmemrefs : ∀ p ∈ st₁.refs, p ∈ mapRemove l st.refs ∨
            p = (T.out rd.root (rd.oidx + 2), { rd with oidx := rd.oidx + 1, proofId := st.proof.db.length + 1 }) := by
          intro p hp
          rw [hrefs] at hp
          simpa using hp
        subst hst
        refine ⟨⟨?_, ?_, ?_, ?_, ?_, ?_, ?_, ?_, ?_, ?_, ?_, ?_⟩, ?_⟩
        · rw [hin, List.map_append, List.nodup_append]
          refine ⟨by rw [hkeys]; exact hi.keys, by simp, ?_⟩
          intro x hx y hy he
          simp only [List.map_cons, List.map_nil, List.mem_singleton] at hy
          subst hy; subst he
          exact hnewi hx
        · refine (hperm3.map Prod.fst).nodup_iff.2 ?_
          simp only [List.map_cons, List.nodup_cons]
          refine ⟨fun hx => ?_, hids.2⟩
          obtain ⟨p, hp, he⟩ := List.mem_map.1 hx
          have := hrle p hp
          omega
        · intro p hp
          rcases List.mem_cons.1 (hperm3.mem_iff.1 hp) with rfl | hp
          · rw [hfresh]; rfl
          · rw [hold _ (hrl p hp).2 (hrl p hp).1]; exact (hrl p hp).1
        · rw [hrefs, List.map_append, List.nodup_append]
          refine ⟨hi.refKeys.sublist (List.filter_sublist.map _), by simp, ?_⟩
          intro x hx y hy he
          simp only [List.map_cons, List.map_nil, List.mem_singleton] at hy
          subst hy; subst he
          exact hnewr hx
        · rw [hrefs, List.map_append, List.nodup_append]
          refine ⟨hi.roots.sublist (List.filter_sublist.map _), by simp, ?_⟩
          intro x hx y hy he
          simp only [List.map_cons, List.map_nil, List.mem_singleton] at hy
          subst hy; subst he
          obtain ⟨p, hp, he⟩ := List.mem_map.1 hx
          exact hroots p hp he
        · intro p hp
          rcases hmemrefs p hp with hp | rfl
          · exact hi.range p (hsub p hp)
          · exact ⟨by simp, by simp only; omega, rfl⟩
        · intro p hp
          rcases hmemrefs p hp with hp | rfl
          · obtain ⟨c₀, g1, g2⟩ := hi.con p (hsub p hp)
            refine ⟨c₀, ?_, g2⟩
            have := hrl _ (hrefrest p hp)
            rw [hold _ this.2 this.1, g1]
          · exact ⟨c', hfresh, hsame⟩
        · intro p hp v hv1 hv2 hx
          rw [hin, List.map_append] at hx
          simp only [List.map_cons, List.map_nil, List.mem_append, List.mem_singleton] at hx
          rcases hmemrefs p hp with hp | rfl
          · rcases hx with hx | hx
            · rw [hkeys] at hx
              exact hi.unused p (hsub p hp) v hv1 hv2 hx
            · exact hroots p hp (hT.injective _ _ _ _ (by omega) hv2 (by omega) (by omega) hx).1
          · simp only at hv1 hv2 hx
            rcases hx with hx | hx
            · rw [hkeys] at hx
              exact hi.unused _ hm v (by simp only; omega) hv2 hx
            · have := (hT.injective _ _ _ _ (by omega) hv2 (by omega) (by omega) hx).2
              omega
        · intro c₀ hc
          obtain ⟨g1, k₀, g2, g3⟩ := hi.core c₀ hc
          refine ⟨g1, k₀, ?_, g3⟩
          have := hrl _ (hcorerest c₀ hc)
          rw [hold _ this.2 this.1, g2]
        · intro ρ
          have h1 := hi.sum ρ
          have h2 := hsum ρ
          rw [trackSum_perm hperm2, trackSum_cons, slackAt_some k1, k2 ρ, slack_coreCon (by omega)] at h1
          rw [trackSum_perm hperm3, trackSum_cons, slackAt_some hfresh, hsame ρ, slack_coreCon (by omega),
            trackSum_congr (fun p hp => hold _ (hrl p hp).2 (hrl p hp).1), hin, linear_append']
          show (objSum obj ρ : Int) = _ + (st.offset : Int) + _ + _
          simp only [Nat.add_sub_cancel, show rd.oidx + 2 - 1 = rd.oidx + 1 by omega] at h1 ⊢
          rw [outs_succ, valSum_append, valSum_single, show 2 + rd.oidx = rd.oidx + 2 by omega]
          have h3 : (linear (solverAsg ρ) [(T.out rd.root (rd.oidx + 2), rd.totWeight)] : Int) =
              rd.totWeight * (toAxm (T.out rd.root (rd.oidx + 2))).val ρ := by
            rw [axmVal]
            simp only [linear]
            split <;> simp
          push_cast
          rw [h3, h1, h2]
          ring
        · intro p hp
          rcases hmemrefs p hp with hp | rfl
          · exact hi.leafs p (hsub p hp)
          · exact hi.leafs (l, rd) hm
        · intro p hp
          obtain ⟨c₀, g1, g2⟩ := hi.done p hp
          refine ⟨c₀, ?_, g2⟩
          have hpr : p ∈ rest := by
            rw [← hrest]
            exact List.mem_append_left _ (List.mem_append_right _ hp)
          rw [hold _ (hrl p hpr).2 (hrl p hpr).1, g1]
        · refine ⟨?_, rfl, rfl, ?_, ?_, ?_⟩
          · refine (WritesPf.write (s := .pol ops) (by simp [StepOk, heval])).trans (WritesPf.write ?_)
            intro j hj
            cases List.mem_singleton.1 hj
            rw [get_write_pol_old (by rw [k1]; rfl), k1]; rfl
          · intro x hx
            rw [hin, List.map_append, hkeys]
            exact List.mem_append_left _ hx
          · intro p hp
            rcases hmemrefs p hp with hp | rfl
            · exact Or.inl (hsub p hp)
            · exact Or.inr hnew
          · intro d₀ c₀ h1 h2
            have hne : d₀ ≠ rd.proofId := fun he => h2 (he ▸ List.mem_map.2 ⟨_, tracked_ref hm, rfl⟩)
            refine ⟨by rw [hold _ hne (by rw [h1]; rfl), h1], fun hx => ?_⟩
            have hx := (hperm3.map Prod.fst).mem_iff.1 hx
            simp only [List.map_cons, List.mem_cons] at hx
            rcases hx with hx | hx
            · have := (ConDb.get_lt h1).2
              omega
            · refine h2 ((hperm2.map Prod.fst).mem_iff.2 ?_)
              simp only [List.map_cons, List.mem_cons]
              exact Or.inr hx

theorem RelaxFrame.refl (st : OllLog) : RelaxFrame ord st st :=
  ⟨WritesPf.refl _, rfl, rfl, fun _ h => h, fun _ h => Or.inl h, fun _ _ h1 h2 => ⟨h1, h2⟩⟩

theorem Spec.OutputDefined.frame {st st' : OllLog} {root v : Nat} (hf : RelaxFrame ord st st')
    (h : OutputDefined T st.proof.db ((tracked st).map Prod.fst) root v) :
    OutputDefined T st'.proof.db ((tracked st').map Prod.fst) root v := by
  obtain ⟨sem, d, c, h1, h2, h3, h4, h5⟩ := h
  obtain ⟨h6, h7⟩ := hf.others d c h4 h3
  exact ⟨sem, d, c, h1, h2, h7, h6, h5⟩

theorem logRelaxLoop_spec {obj : Objective} {cw : Nat} (hT : TotContract T) : ∀ {ls : List Lit} {st st' : OllLog}
    {extra : (AnyVar → Bool) → Int}, OllInv T obj st extra → ls.Nodup → (∀ l ∈ ls, l ∈ st.inactives.map Prod.fst) →
    (∀ p ∈ st.refs, p.1 ∈ ls → p.2.oidx + 1 < T.len p.2.root →
      OutputDefined T st.proof.db ((tracked st).map Prod.fst) p.2.root (p.2.oidx + 2)) →
    logRelaxLoop T cw ls st = some st' →
    OllInv T obj st' (fun ρ => extra ρ + cw * valSum ls ρ) ∧ RelaxFrame ord st st'
  | [], st, st', extra, hi, _, _, _, h => by
    simp only [logRelaxLoop, Option.some.injEq] at h
    subst h
    refine ⟨?_, RelaxFrame.refl st⟩
    simpa [valSum] using hi
  | l :: ls, st, st', extra, hi, hn, hk, hd, h => by
    simp only [logRelaxLoop] at h
    obtain ⟨st₁, h1, h⟩ := Option.bind_eq_some_iff.1 h
    rw [List.nodup_cons] at hn
    obtain ⟨g1, g2⟩ := logRelaxLit_spec (ord := ord) hT hi
      (fun p hp he => hd p hp (by rw [he]; exact List.mem_cons_self ..)) h1
    obtain ⟨g3, g4⟩ := logRelaxLoop_spec hT g1 hn.2 (fun x hx => g2.keys x (hk x (List.mem_cons_of_mem _ hx)))
      (fun p hp hpl hlt => by
        rcases g2.refs p hp with hp' | hp'
        · exact (hd p hp' (List.mem_cons_of_mem _ hpl) hlt).frame g2
        · exact absurd (hk _ (List.mem_cons_of_mem _ hpl)) hp') h
    refine ⟨?_, g2.trans g4⟩
    convert g3 using 2 with ρ
    simp only [valSum, List.map_cons, List.sum_cons]
    ring

theorem coreWeight_keys {m : List (Lit × Nat)} {core : List Lit} {cw : Nat} (h : coreWeight (.weighted m) core = some cw) :
    ∀ l ∈ core, l ∈ m.map Prod.fst := by
  simp only [coreWeight] at h
  have hnone : ∀ core : List Lit, core.foldl (fun w l => do
      let w ← w
      let lw ← mapGet l m
      some (min w lw)) (none : Option Nat) = none := by
    intro core
    induction core with
    | nil => rfl
    | cons l ls ih => exact ih
  have : ∀ (core : List Lit) (w : Option Nat), core.foldl (fun w l => do
      let w ← w
      let lw ← mapGet l m
      some (min w lw)) w = some cw → ∀ l ∈ core, l ∈ m.map Prod.fst := by
    intro core
    induction core with
    | nil => intro _ _ l hl; cases hl
    | cons l ls ih =>
      intro w hw x hx
      simp only [List.foldl_cons] at hw
      rcases List.mem_cons.1 hx with rfl | hx
      · cases hg : mapGet x m with
        | some v => exact List.mem_map.2 ⟨_, mapGet_mem hg, rfl⟩
        | none =>
          rw [hg] at hw
          have hw' := (hnone ls).symm.trans (by cases w <;> exact hw)
          cases hw'
      · exact ih _ hw x hx
  exact this core _ h

/-- The invariant with a new constraint to combine. -/
theorem OllInv.track {obj : Objective} {st st' : OllLog} {extra : (AnyVar → Bool) → Int} {id w : Nat} {c : LbCon AnyVar}
    (hi : OllInv T obj st extra) (hp : (tracked st').Perm ((id, w) :: tracked st)) (hget : st.proof.db.get id = some c)
    (hid : id ∉ (tracked st).map Prod.fst) (h1 : st'.proof = st.proof) (h2 : st'.inactives = st.inactives)
    (h3 : st'.refs = st.refs) (h4 : st'.offset = st.offset)
    (hc : ∀ k ∈ st'.cores, 1 < k.lits.length ∧ ∃ d, st'.proof.db.get k.proofId = some d ∧ LbCon.Same d (clauseCon k.lits))
    (hr : ∀ p ∈ st'.reformIds, p ∈ st.reformIds ∨ (p = (id, w) ∧ Tight T c))
    (he : ∀ ρ, extra ρ = w * c.slack ρ) : OllInv T obj st' (fun _ => 0) where
  keys := by rw [h2]; exact hi.keys
  ids := by
    refine (hp.map Prod.fst).nodup_iff.2 ?_
    simp only [List.map_cons, List.nodup_cons]
    exact ⟨hid, hi.ids⟩
  live := fun p hp' => by
    rw [h1]
    rcases List.mem_cons.1 (hp.mem_iff.1 hp') with rfl | hp'
    · rw [hget]; rfl
    · exact hi.live p hp'
  refKeys := by rw [h3]; exact hi.refKeys
  roots := by rw [h3]; exact hi.roots
  range := by rw [h3]; exact hi.range
  con := by rw [h3, h1]; exact hi.con
  unused := by rw [h3, h2]; exact hi.unused
  core := hc
  sum := fun ρ => by
    rw [h1, h2, h4, trackSum_perm hp, trackSum_cons, slackAt_some hget, hi.sum ρ, he ρ]
    ring
  leafs := by rw [h3]; exact hi.leafs
  done := fun p hp' => by
    rw [h1]
    rcases hr p hp' with hp' | ⟨rfl, ht⟩
    · exact hi.done p hp'
    · exact ⟨c, hget, ht⟩

/-- Lines written and the invariant kept. -/
theorem logCore_spec {obj : Objective} {st st' : OllLog} {core : List Lit} {id : Nat} (hT : TotContract T)
    (hi : OllInv T obj st (fun _ => 0)) (ha : OllAllowed T ord st (.core core id)) (h : logCore T core id st = some st') :
    OllInv T obj st' (fun _ => 0) ∧ WritesPf ord st.proof st'.proof := by
  obtain ⟨hn, hne, ⟨c, hget, hc⟩, hid, hd⟩ := ha
  unfold logCore at h
  obtain ⟨cw, hcw, h⟩ := Option.bind_eq_some_iff.1 h
  obtain ⟨st₁, h1, h⟩ := Option.bind_eq_some_iff.1 h
  let st₀ : OllLog := { st with offset := st.offset + cw }
  have hi₀ : OllInv T obj st₀ (fun _ => -(cw : Int)) :=
    ⟨hi.keys, hi.ids, hi.live, hi.refKeys, hi.roots, hi.range, hi.con, hi.unused, hi.core, fun ρ => (by
      rw [hi.sum ρ]
      show _ = (linear (solverAsg ρ) st.inactives : Int) + ((st.offset + cw : Nat) : Int) +
        trackSum st.proof.db (tracked st) ρ + _
      push_cast; ring), hi.leafs, hi.done⟩
  obtain ⟨g1, g2⟩ := logRelaxLoop_spec (ord := ord) hT hi₀ hn (coreWeight_keys hcw) hd h1
  obtain ⟨g3, g4⟩ := g2.others id c hget hid
  have hex : ∀ ρ, -(cw : Int) + cw * valSum core ρ = cw * c.slack ρ := fun ρ => by
    rw [hc ρ, slack_clauseCon]; ring
  split at h
  · rename_i hlen
    simp only [Option.some.injEq] at h
    subst h
    refine ⟨g1.track (id := id) (w := cw) (c := c) ?_ g3 g4 rfl rfl rfl rfl ?_ (fun p hp => .inl hp) hex, g2.writes⟩
    · unfold tracked
      rw [List.map_append, ← List.append_assoc]
      exact List.perm_append_comm
    · intro k hk
      rcases List.mem_append.1 hk with hk | hk
      · exact g1.core k hk
      · cases List.mem_singleton.1 hk
        exact ⟨hlen, c, g3, hc⟩
  · simp only [Option.some.injEq] at h
    subst h
    refine ⟨g1.track (id := id) (w := cw) (c := c) ?_ g3 g4 rfl rfl rfl rfl g1.core (fun p hp => ?_) hex, g2.writes⟩
    · exact perm_snoc_mid _ _ _ _
    · rcases List.mem_append.1 hp with hp | hp
      · exact .inl hp
      · refine .inr ⟨List.mem_singleton.1 hp, ?_⟩
        match core, hne with
        | [l], _ => exact tight_unit hc
        | _ :: _ :: _, _ => rename_i hlen _; exact absurd (by simp) hlen

theorem first_same {c d : LbCon AnyVar} {root : Nat} {lits : List Lit} (hc : LbCon.Same c (clauseCon lits))
    (hl : (T.leafs root).Perm lits) (hd : OnlyIfDef d (leafSum T root) 2 (toAxm (T.out root 2)))
    (hv : ((T.leafs root ++ outs T root 2 1).map Lit.var).Nodup) :
    LbCon.Same ((c.add d).div 2) (coreCon T root 2) := by
  have h1 : LbCon.Same c (coreCon T root 1) := fun ρ => by
    rw [hc ρ, slack_clauseCon, slack_coreCon (le_refl _), leafSum_eq, valSum_perm hl]
    simp [outs, valSum]
  have h2 := extend_same (n := 1) (le_refl _) h1 hd hv
  refine LbCon.Same.trans (LbCon.Same.div ?_ 2) h2
  intro ρ
  rw [LbCon.slack_add, LbCon.slack_add, LbCon.slack_mul]
  simp

theorem logReform_spec {obj : Objective} {st st' : OllLog} {root : Nat} (hT : TotContract T)
    (hi : OllInv T obj st (fun _ => 0)) (ha : OllAllowed T ord st (.reform root)) (h : logReform T root st = some st') :
    OllInv T obj st' (fun _ => 0) ∧ WritesPf ord st.proof st'.proof := by
  unfold logReform at h
  cases hcs : st.cores with
  | nil =>
    rw [hcs] at h
    cases h
    exact ⟨hi, WritesPf.refl _⟩
  | cons k cs =>
    rw [hcs] at h
    obtain ⟨hperm, hlen, ⟨sem', d, c, q1, q2, q3, q4, q5⟩, hroot, hout⟩ := ha k (by rw [hcs]; rfl)
    simp only at h
    obtain ⟨sem, hsem, h⟩ := Option.bind_eq_some_iff.1 h
    obtain ⟨only, honly, h⟩ := Option.bind_eq_some_iff.1 h
    rw [hsem] at q1; cases q1
    rw [honly] at q2; cases q2
    obtain ⟨hk1, kc, k1, k2⟩ := hi.core k (by rw [hcs]; exact List.mem_cons_self ..)
    rw [if_pos (by omega)] at h
    simp only [Option.some.injEq] at h
    generalize hops : Ops.div (.add (.id (.abs k.proofId)) (.id (.abs d))) 2 = ops at h
    have heval : ops.eval st.proof.db = some ((kc.add c).div 2) := by
      rw [← hops]
      simp only [Ops.eval, ConDb.find_abs, k1, q4, Option.map_some, Option.bind_eq_bind, Option.bind_some]
      rfl
    have hsame : LbCon.Same ((kc.add c).div 2) (coreCon T root 2) := first_same k2 hperm q5 (hT.upTo root (by omega))
    generalize (kc.add c).div 2 = c' at heval hsame
    have hnewi : T.out root 2 ∉ st.inactives.map Prod.fst := fun hx => by
      obtain ⟨p, hp, he⟩ := List.mem_map.1 hx
      exact hout 2 (le_refl _) (by omega) p hp he
    have hnewr : T.out root 2 ∉ st.refs.map Prod.fst := fun hx => by
      obtain ⟨p, hp, he⟩ := List.mem_map.1 hx
      obtain ⟨p1, p2, p3⟩ := hi.range p hp
      rw [p3] at he
      exact hroot p hp (hT.injective _ _ _ _ (by omega) p2 (le_refl _) (by omega) he).1
    let st₁ : OllLog := { st with
      proof := st.proof.write (.pol ops), cores := cs
      inactives := mapInsert (T.out root 2) k.weight st.inactives
      refs := mapInsert (T.out root 2) ⟨root, 1, k.weight, st.proof.db.length + 1⟩ st.refs }
    have hst : st' = st₁ := by rw [← h]; rfl
    have hin : st₁.inactives = st.inactives ++ [(T.out root 2, k.weight)] := mapInsert_new _ _ _ hnewi
    have hrefs : st₁.refs = st.refs ++ [(T.out root 2, ⟨root, 1, k.weight, st.proof.db.length + 1⟩)] :=
      mapInsert_new _ _ _ hnewr
    have hold : ∀ j, (st.proof.db.get j).isSome → st₁.proof.db.get j = st.proof.db.get j := fun j hj => get_write_pol_old hj
    have hfresh : st₁.proof.db.get (st.proof.db.length + 1) = some c' := get_write_pol heval
    have hperm2 : (tracked st).Perm ((k.proofId, k.weight) :: (st.refs.map (fun p => (p.2.proofId, p.2.totWeight)) ++
        st.reformIds ++ cs.map fun c => (c.proofId, c.weight))) := by
      unfold tracked
      rw [hcs, List.map_cons]
      exact List.perm_middle
    have hperm3 : (tracked st₁).Perm ((st.proof.db.length + 1, k.weight) ::
        (st.refs.map (fun p => (p.2.proofId, p.2.totWeight)) ++ st.reformIds ++ cs.map fun c => (c.proofId, c.weight))) := by
      unfold tracked
      rw [hrefs]
      simp only [List.map_append, List.map_cons, List.map_nil, List.append_assoc, List.singleton_append]
      exact List.perm_middle
    generalize hrest : st.refs.map (fun p => (p.2.proofId, p.2.totWeight)) ++ st.reformIds ++
          cs.map (fun c => (c.proofId, c.weight)) = rest at hperm2 hperm3
    have hids := ((hperm2.map Prod.fst).nodup_iff.1 hi.ids)
    simp only [List.map_cons, List.nodup_cons] at hids
    have hrl : ∀ p ∈ rest, (st.proof.db.get p.1).isSome := fun p hp =>
      hi.live p (hperm2.mem_iff.2 (List.mem_cons_of_mem _ hp))
    have hrle : ∀ p ∈ rest, p.1 ≤ st.proof.db.length := fun p hp => by
      obtain ⟨c, hc⟩ := Option.isSome_iff_exists.1 (hrl p hp)
      exact (ConDb.get_lt hc).2
    have hmemrefs : ∀ p ∈ st₁.refs, p ∈ st.refs ∨ p = (T.out root 2, ⟨root, 1, k.weight, st.proof.db.length + 1⟩) := by
      intro p hp
      rw [hrefs] at hp
      simpa using hp
    subst hst
    refine ⟨⟨?_, ?_, ?_, ?_, ?_, ?_, ?_, ?_, ?_, ?_, ?_, ?_⟩, WritesPf.write (by simp [StepOk, heval])⟩
    · rw [hin, List.map_append, List.nodup_append]
      refine ⟨hi.keys, by simp, ?_⟩
      intro x hx y hy he
      simp only [List.map_cons, List.map_nil, List.mem_singleton] at hy
      subst hy; subst he
      exact hnewi hx
    · refine (hperm3.map Prod.fst).nodup_iff.2 ?_
      simp only [List.map_cons, List.nodup_cons]
      refine ⟨fun hx => ?_, hids.2⟩
      obtain ⟨p, hp, he⟩ := List.mem_map.1 hx
      have := hrle p hp
      omega
    · intro p hp
      rcases List.mem_cons.1 (hperm3.mem_iff.1 hp) with rfl | hp
      · rw [hfresh]; rfl
      · rw [hold _ (hrl p hp)]; exact hrl p hp
    · rw [hrefs, List.map_append, List.nodup_append]
      refine ⟨hi.refKeys, by simp, ?_⟩
      intro x hx y hy he
      simp only [List.map_cons, List.map_nil, List.mem_singleton] at hy
      subst hy; subst he
      exact hnewr hx
    · rw [hrefs, List.map_append, List.nodup_append]
      refine ⟨hi.roots, by simp, ?_⟩
      intro x hx y hy he
      simp only [List.map_cons, List.map_nil, List.mem_singleton] at hy
      subst hy; subst he
      obtain ⟨p, hp, he⟩ := List.mem_map.1 hx
      exact hroot p hp he
    · intro p hp
      rcases hmemrefs p hp with hp | rfl
      · exact hi.range p hp
      · exact ⟨by simp, by simp only; omega, rfl⟩
    · intro p hp
      rcases hmemrefs p hp with hp | rfl
      · obtain ⟨c₀, g1, g2⟩ := hi.con p hp
        exact ⟨c₀, by rw [hold _ (by rw [g1]; rfl), g1], g2⟩
      · exact ⟨c', hfresh, hsame⟩
    · intro p hp v hv1 hv2 hx
      rw [hin, List.map_append] at hx
      simp only [List.map_cons, List.map_nil, List.mem_append, List.mem_singleton] at hx
      rcases hmemrefs p hp with hp | rfl
      · rcases hx with hx | hx
        · exact hi.unused p hp v hv1 hv2 hx
        · exact hroot p hp (hT.injective _ _ _ _ (by omega) hv2 (le_refl _) (by omega) hx).1
      · simp only at hv1 hv2 hx
        rcases hx with hx | hx
        · obtain ⟨q, hq, he⟩ := List.mem_map.1 hx
          exact hout v (by omega) hv2 q hq he
        · have := (hT.injective _ _ _ _ (by omega) hv2 (le_refl _) (by omega) hx).2
          omega
    · intro c₀ hc
      obtain ⟨g1, k₀, g2, g3⟩ := hi.core c₀ (by rw [hcs]; exact List.mem_cons_of_mem _ hc)
      exact ⟨g1, k₀, by rw [hold _ (by rw [g2]; rfl), g2], g3⟩
    · intro ρ
      have h1 := hi.sum ρ
      rw [trackSum_perm hperm2, trackSum_cons, slackAt_some k1, k2 ρ, slack_clauseCon, ← valSum_perm hperm] at h1
      rw [trackSum_perm hperm3, trackSum_cons, slackAt_some hfresh, hsame ρ, slack_coreCon (by omega),
        trackSum_congr (fun p hp => hold _ (hrl p hp)), hin, linear_append', leafSum_eq]
      show (objSum obj ρ : Int) = _ + (st.offset : Int) + _ + _
      have h3 : (linear (solverAsg ρ) [(T.out root 2, k.weight)] : Int) =
          k.weight * (toAxm (T.out root 2)).val ρ := by
        rw [axmVal]
        simp only [linear]
        split <;> simp
      have h4 : valSum (outs T root 2 (2 - 1)) ρ = (toAxm (T.out root 2)).val ρ := by simp [outs, valSum]
      push_cast
      rw [h3, h4, h1]
      ring
    · intro p hp
      rcases hmemrefs p hp with hp | rfl
      · exact hi.leafs p hp
      · rw [hperm.length_eq, hlen]
    · intro p hp
      obtain ⟨c₀, g1, g2⟩ := hi.done p hp
      exact ⟨c₀, by rw [hold _ (by rw [g1]; rfl), g1], g2⟩

theorem others_spec {obj : Objective} {st : OllLog} {lines : List (ProofStep AnyVar)}
    (hi : OllInv T obj st (fun _ => 0)) (ha : OllAllowed T ord st (.others lines)) :
    OllInv T obj { st with proof := st.proof.writeAll lines } (fun _ => 0) ∧
      WritesPf ord st.proof (st.proof.writeAll lines) := by
  obtain ⟨h1, h2⟩ := ha
  refine ⟨⟨hi.keys, hi.ids, fun p hp => ?_, hi.refKeys, hi.roots, hi.range, fun p hp => ?_, hi.unused, fun c hc => ?_,
    fun ρ => ?_, hi.leafs, fun p hp => ?_⟩, WritesPf.writeAll h1⟩
  · show ((st.proof.writeAll lines).db.get p.1).isSome
    rw [h2 p hp]; exact hi.live p hp
  · obtain ⟨c, g1, g2⟩ := hi.con p hp
    exact ⟨c, by rw [h2 _ (tracked_ref hp)]; exact g1, g2⟩
  · obtain ⟨g0, k, g1, g2⟩ := hi.core c hc
    exact ⟨g0, k, by rw [h2 _ (tracked_core hc)]; exact g1, g2⟩
  · rw [hi.sum ρ]
    show _ = (linear (solverAsg ρ) st.inactives : Int) + st.offset +
      trackSum (st.proof.writeAll lines).db (tracked st) ρ + _
    rw [trackSum_congr h2]
  · obtain ⟨c, g1, g2⟩ := hi.done p hp
    exact ⟨c, by rw [h2 _ (tracked_done hp)]; exact g1, g2⟩

theorem ollRun_spec {obj : Objective} (hT : TotContract T) : ∀ {es : List OllEvent} {st st' : OllLog},
    OllInv T obj st (fun _ => 0) → OllAllowedAll T ord es st → st.run T es = some st' →
    OllInv T obj st' (fun _ => 0) ∧ WritesPf ord st.proof st'.proof
  | [], st, st', hi, _, h => by
    simp only [OllLog.run, Option.some.injEq] at h
    subst h
    exact ⟨hi, WritesPf.refl _⟩
  | e :: es, st, st', hi, ha, h => by
    simp only [OllLog.run] at h
    obtain ⟨st₁, h1, h⟩ := Option.bind_eq_some_iff.1 h
    have key : OllInv T obj st₁ (fun _ => 0) ∧ WritesPf ord st.proof st₁.proof := by
      cases e with
      | core lits id => exact logCore_spec hT hi ha.1 h1
      | reform root => exact logReform_spec hT hi ha.1 h1
      | others lines =>
        simp only [OllLog.event, Option.some.injEq] at h1
        subst h1
        exact others_spec hi ha.1
    obtain ⟨g1, g2⟩ := ollRun_spec hT key.1 (ha.2 st₁ h1) h
    exact ⟨g1, key.2.trans g2⟩

/-! ## The end -/

theorem exactOps_spec (hT : TotContract T) {db : ConDb AnyVar} {root : Nat} {used : List Nat} : ∀ {k n : Nat} {ops ops' : Ops}
    {c : LbCon AnyVar}, 1 ≤ n → n + k ≤ T.len root →
    (∀ v, n + 1 ≤ v → v ≤ n + k → OutputDefined T db used root v) → ops.eval db = some c →
    LbCon.Same c (coreCon T root n) → exactOps T root k (n + 1) ops = some ops' →
    ∃ c', ops'.eval db = some c' ∧ LbCon.Same c' (coreCon T root (n + k))
  | 0, n, ops, ops', c, _, _, _, h1, h2, h => by
    simp only [exactOps, Option.some.injEq] at h
    subst h
    exact ⟨c, h1, h2⟩
  | k + 1, n, ops, ops', c, hn, hlen, hd, h1, h2, h => by
    simp only [exactOps] at h
    obtain ⟨sem, hsem, h⟩ := Option.bind_eq_some_iff.1 h
    obtain ⟨only, honly, h⟩ := Option.bind_eq_some_iff.1 h
    obtain ⟨sem', d, c₂, q1, q2, q3, q4, q5⟩ := hd (n + 1) (le_refl _) (by omega)
    rw [hsem] at q1; cases q1
    rw [honly] at q2; cases q2
    have heval : (extendOps ops n only).eval db = some (((c.mul n).add c₂).div (n + 1)) := by
      simp only [extendOps, Ops.eval, ConDb.find_abs, h1, q4, Option.map_some, Option.bind_eq_bind, Option.bind_some]
      rfl
    have hsame := extend_same hn h2 q5 (hT.upTo root (by omega))
    rw [show n + (k + 1) = n + 1 + k by omega]
    exact exactOps_spec hT (by omega) (by omega) (fun v hv1 hv2 => hd v (by omega) (by omega)) heval hsame h

/-- What the loop for exactness does. -/
theorem logExact_spec (hT : TotContract T) : ∀ {rs rs' : List (Lit × LogRef)} {pf pf' : Pf AnyVar},
    (rs.map fun p => p.2.proofId).Nodup →
    (∀ p ∈ rs, 1 ≤ p.2.oidx ∧ p.2.oidx + 1 ≤ T.len p.2.root ∧
      ∃ c, pf.db.get p.2.proofId = some c ∧ LbCon.Same c (coreCon T p.2.root (p.2.oidx + 1))) →
    (∀ p ∈ rs, ∀ v, p.2.oidx + 2 ≤ v → v ≤ T.len p.2.root →
      OutputDefined T pf.db (rs.map fun p => p.2.proofId) p.2.root v) →
    logExact T rs pf = some (rs', pf') →
    WritesPf ord pf pf' ∧ (∀ i c, pf.db.get i = some c → i ∉ rs.map (fun p => p.2.proofId) → pf'.db.get i = some c) ∧
      List.Forall₂ (fun p p' => p'.1 = p.1 ∧ p'.2.root = p.2.root ∧ p'.2.oidx = p.2.oidx ∧ p'.2.totWeight = p.2.totWeight ∧
        ∃ c, pf'.db.get p'.2.proofId = some c ∧ LbCon.Same c (coreCon T p.2.root (T.len p.2.root))) rs rs'
  | [], rs', pf, pf', _, _, _, h => by
    simp only [logExact, Option.some.injEq, Prod.mk.injEq] at h
    obtain ⟨rfl, rfl⟩ := h
    exact ⟨WritesPf.refl _, fun _ _ h _ => h, .nil⟩
  | (l, rd) :: rs, rs', pf, pf', hn, hc, hd, h => by
    simp only [logExact] at h
    simp only [List.map_cons, List.nodup_cons] at hn
    obtain ⟨ho1, ho2, c, hget, hsame⟩ := hc (l, rd) (List.mem_cons_self ..)
    simp only at ho1 ho2 hget hsame
    split at h
    · rename_i hge
      obtain ⟨⟨rs₁, pf₁⟩, h1, h⟩ := Option.bind_eq_some_iff.1 h
      simp only [Option.some.injEq, Prod.mk.injEq] at h
      obtain ⟨rfl, rfl⟩ := h
      obtain ⟨g1, g2, g3⟩ := logExact_spec hT hn.2 (fun p hp => hc p (List.mem_cons_of_mem _ hp))
        (fun p hp v h2 h3 => by
          obtain ⟨sem, d, c₂, q1, q2, q3, q4⟩ := hd p (List.mem_cons_of_mem _ hp) v h2 h3
          exact ⟨sem, d, c₂, q1, q2, fun hx => q3 (List.mem_cons_of_mem _ hx), q4⟩) h1
      refine ⟨g1, fun i c' hi hx => g2 i c' hi fun hm => hx (List.mem_cons_of_mem _ hm),
        .cons ⟨rfl, rfl, rfl, rfl, c, g2 _ _ hget hn.1, ?_⟩ g3⟩
      rw [show T.len rd.root = rd.oidx + 1 by omega]
      exact hsame
    · rename_i hlt
      obtain ⟨ops, hops, h⟩ := Option.bind_eq_some_iff.1 h
      obtain ⟨⟨rs₁, pf₁⟩, h1, h⟩ := Option.bind_eq_some_iff.1 h
      simp only [Option.some.injEq, Prod.mk.injEq] at h
      obtain ⟨rfl, rfl⟩ := h
      obtain ⟨c', e1, e2⟩ := exactOps_spec hT (db := pf.db) (root := rd.root) (n := rd.oidx + 1) (by omega) (by omega)
        (fun v hv1 hv2 => hd (l, rd) (List.mem_cons_self ..) v hv1 (by
          have h9 : v ≤ T.len rd.root := by omega
          exact h9))
        (show (Ops.id (.abs rd.proofId)).eval pf.db = some c by simp [Ops.eval, ConDb.find_abs, hget]) hsame hops
      rw [show rd.oidx + 1 + (T.len rd.root - (rd.oidx + 1)) = T.len rd.root by omega] at e2
      have hlen := (ConDb.get_lt hget).2
      let pf₀ := (pf.write (.pol ops)).write (.del [rd.proofId] [])
      have hold : ∀ i c, pf.db.get i = some c → i ≠ rd.proofId → pf₀.db.get i = some c := by
        intro i c hi hne
        show ConDb.get (ConDb.delete (pf.write (.pol ops)).db [rd.proofId]) i = _
        rw [ConDb.get_delete (by simpa using hne), get_write_pol_old (by rw [hi]; rfl), hi]
      have hfresh : pf₀.db.get (pf.db.length + 1) = some c' := by
        show ConDb.get (ConDb.delete (pf.write (.pol ops)).db [rd.proofId]) _ = _
        rw [ConDb.get_delete (by simp; omega), get_write_pol e1]
      have hw : WritesPf ord pf pf₀ := by
        refine (WritesPf.write (s := .pol ops) (by simp [StepOk, e1])).trans (WritesPf.write ?_)
        intro j hj
        cases List.mem_singleton.1 hj
        rw [get_write_pol_old (by rw [hget]; rfl), hget]; rfl
      obtain ⟨g1, g2, g3⟩ := logExact_spec (pf := pf₀) hT hn.2
        (fun p hp => by
          obtain ⟨r1, r2, c₂, r3, r4⟩ := hc p (List.mem_cons_of_mem _ hp)
          exact ⟨r1, r2, c₂, hold _ _ r3 fun he => hn.1 (List.mem_map.2 ⟨p, hp, he⟩), r4⟩)
        (fun p hp v h2 h3 => by
          obtain ⟨sem, d, c₂, q1, q2, q3, q4, q5⟩ := hd p (List.mem_cons_of_mem _ hp) v h2 h3
          simp only [List.map_cons, List.mem_cons, not_or] at q3
          exact ⟨sem, d, c₂, q1, q2, q3.2, hold _ _ q4 q3.1, q5⟩) h1
      refine ⟨hw.trans g1, fun i c₂ hi hx => ?_, .cons ⟨rfl, rfl, rfl, rfl, c', ?_, e2⟩ g3⟩
      · simp only [List.map_cons, List.mem_cons, not_or] at hx
        exact g2 i c₂ (hold _ _ hi hx.1) hx.2
      · refine g2 _ _ hfresh fun hx => ?_
        obtain ⟨p, hp, he⟩ := List.mem_map.1 hx
        obtain ⟨_, _, c₂, r3, _⟩ := hc p (List.mem_cons_of_mem _ hp)
        have := (ConDb.get_lt r3).2
        have he' : p.2.proofId = pf.db.length + 1 := he
        omega

theorem sumOps_spec {db : ConDb AnyVar} : ∀ {l : List (Nat × Nat)} {acc : Ops}, (∀ p ∈ l, (db.get p.1).isSome) →
    ((acc = .empty ∧ l = [] ∧ l.foldl (fun seq p => seq.plus (.mul (.id (.abs p.1)) p.2)) acc = .empty) ∨
      ∃ c, (l.foldl (fun seq p => seq.plus (.mul (.id (.abs p.1)) p.2)) acc).eval db = some c ∧
        ∀ ρ, c.slack ρ = ((acc.eval db).map fun c => c.slack ρ).getD 0 + trackSum db l ρ) ∨
      (acc ≠ .empty ∧ acc.eval db = none)
  | [], acc, _ => by
    by_cases he : acc = .empty
    · exact Or.inl (Or.inl ⟨he, rfl, he⟩)
    · cases h : acc.eval db with
      | none => exact Or.inr ⟨he, rfl⟩
      | some c => exact Or.inl (Or.inr ⟨c, h, fun ρ => by simp [trackSum]⟩)
  | p :: l, acc, hl => by
    obtain ⟨k, hk⟩ := Option.isSome_iff_exists.1 (hl p (List.mem_cons_self ..))
    have hm : (Ops.mul (.id (.abs p.1)) p.2).eval db = some (k.mul p.2) := by
      simp [Ops.eval, ConDb.find_abs, hk]
    simp only [List.foldl_cons]
    have step : (acc ≠ .empty ∧ acc.eval db = none) ∨ ∃ c, (acc.plus (.mul (.id (.abs p.1)) p.2)) ≠ .empty ∧
        (acc.plus (.mul (.id (.abs p.1)) p.2)).eval db = some c ∧
        ∀ ρ, c.slack ρ = ((acc.eval db).map fun c => c.slack ρ).getD 0 + p.2 * slackAt db p.1 ρ := by
      by_cases he : acc = .empty
      · subst he
        refine Or.inr ⟨k.mul p.2, by simp [Ops.plus], hm, fun ρ => ?_⟩
        rw [LbCon.slack_mul, slackAt_some hk]
        simp [Ops.eval]
      · cases h : acc.eval db with
        | none => exact Or.inl ⟨he, rfl⟩
        | some c =>
          have hplus : acc.plus (.mul (.id (.abs p.1)) p.2) = .add acc (.mul (.id (.abs p.1)) p.2) := by
            cases acc <;> first | exact absurd rfl he | rfl
          refine Or.inr ⟨c.add (k.mul p.2), by rw [hplus]; simp, ?_, fun ρ => ?_⟩
          · rw [hplus, Ops.eval, h, hm]
            rfl
          · rw [LbCon.slack_add, LbCon.slack_mul, slackAt_some hk]
            simp
    rcases step with hs | ⟨c, h1, h2, h3⟩
    · exact Or.inr hs
    · rcases sumOps_spec (acc := acc.plus (.mul (.id (.abs p.1)) p.2))
        (fun q hq => hl q (List.mem_cons_of_mem _ hq)) with (⟨h4, _⟩ | ⟨c', h4, h5⟩) | ⟨_, h4⟩
      · exact absurd h4 h1
      · refine Or.inl (Or.inr ⟨c', h4, fun ρ => ?_⟩)
        rw [h5 ρ, h2, trackSum_cons]
        simp only [Option.map_some, Option.getD_some]
        rw [h3 ρ]; ring
      · rw [h2] at h4; cases h4

/-- The sum of all reformulations. -/
theorem sumOps_eval {db : ConDb AnyVar} {l : List (Nat × Nat)} (h : ∀ p ∈ l, (db.get p.1).isSome) :
    (l = [] ∧ sumOps l = .empty) ∨ (sumOps l ≠ .empty ∧ ∃ c, (sumOps l).eval db = some c ∧ ∀ ρ, c.slack ρ = trackSum db l ρ) := by
  rcases sumOps_spec (acc := .empty) h with (⟨_, h1, h2⟩ | ⟨c, h1, h2⟩) | ⟨h1, _⟩
  · exact Or.inl ⟨h1, h2⟩
  · refine Or.inr ⟨fun he => ?_, c, h1, fun ρ => ?_⟩
    · unfold sumOps at he
      rw [he] at h1
      cases h1
    · rw [h2 ρ]
      simp [Ops.eval]
  · exact absurd rfl h1



theorem sum_linear (ρ : AnyVar → Bool) : ∀ m : List (Lit × Nat),
    (m.map fun p => (p.2 : Int) * (toAxm p.1).val ρ).sum = linear (solverAsg ρ) m
  | [] => by simp [linear]
  | p :: m => by
    rw [List.map_cons, List.sum_cons, sum_linear ρ m, axmVal]
    simp only [linear]
    split <;> simp

theorem sum_linear_neg (ρ : AnyVar → Bool) (m : List (Lit × Nat)) :
    (m.map fun p => -(p.2 : Int) * (toAxm p.1).val ρ).sum = -linear (solverAsg ρ) m := by
  rw [← sum_linear]
  induction m with
  | nil => simp
  | cons p m ih => simp only [List.map_cons, List.sum_cons, ih]; ring

/-- Outputs not in use. -/
def restSum (T : TotView) (rs : List (Lit × LogRef)) (ρ : AnyVar → Bool) : Int :=
  (rs.map fun p => (p.2.totWeight : Int) * valSum (outs T p.2.root (p.2.oidx + 2) (T.len p.2.root - (p.2.oidx + 1))) ρ).sum

theorem slack_reformCon (obj : Objective) (T : TotView) (st : OllLog) (ρ : AnyVar → Bool) :
    (reformCon obj T st).slack ρ =
      objSum obj ρ - linear (solverAsg ρ) st.inactives - restSum T st.refs ρ - st.offset := by
  rw [LbCon.slack_def]
  unfold reformCon
  simp only [List.map_append, List.sum_append, List.map_map, Function.comp_def]
  rw [sum_linear, sum_linear_neg]
  have : ∀ rs : List (Lit × LogRef), ((rs.flatMap fun p =>
      (outs T p.2.root (p.2.oidx + 2) (T.len p.2.root - (p.2.oidx + 1))).map fun o =>
        (-(p.2.totWeight : Int), toAxm o)).map fun p => p.1 * p.2.val ρ).sum = -restSum T rs ρ := by
    intro rs
    induction rs with
    | nil => simp [restSum]
    | cons p rs ih =>
      rw [List.flatMap_cons, List.map_append, List.sum_append, ih, sum_scaled]
      simp only [restSum, List.map_cons, List.sum_cons]
      ring
  rw [this]
  unfold objSum
  ring

/-- The constraints of relaxed literals, made exact. -/
theorem exact_sum {db : ConDb AnyVar} {db' : ConDb AnyVar} {ρ : AnyVar → Bool} : ∀ {rs rs' : List (Lit × LogRef)},
    (∀ p ∈ rs, 1 ≤ p.2.oidx ∧ p.2.oidx + 1 ≤ T.len p.2.root ∧
      ∃ c, db.get p.2.proofId = some c ∧ LbCon.Same c (coreCon T p.2.root (p.2.oidx + 1))) →
    List.Forall₂ (fun p p' => p'.1 = p.1 ∧ p'.2.root = p.2.root ∧ p'.2.oidx = p.2.oidx ∧ p'.2.totWeight = p.2.totWeight ∧
        ∃ c, db'.get p'.2.proofId = some c ∧ LbCon.Same c (coreCon T p.2.root (T.len p.2.root))) rs rs' →
    trackSum db' (rs'.map fun p => (p.2.proofId, p.2.totWeight)) ρ =
      trackSum db (rs.map fun p => (p.2.proofId, p.2.totWeight)) ρ - restSum T rs ρ
  | [], _, _, .nil => by simp [trackSum, restSum]
  | p :: rs, _, hc, .cons (b := p') (l₂ := rs') ⟨_, _, _, h4, c', h5, h6⟩ hf => by
    obtain ⟨h1, h2, c, h7, h8⟩ := hc p (List.mem_cons_self ..)
    have ih := exact_sum (ρ := ρ) (fun q hq => hc q (List.mem_cons_of_mem _ hq)) hf
    rw [List.map_cons, List.map_cons, trackSum_cons, trackSum_cons, ih, slackAt_some h5, slackAt_some h7, h6 ρ, h8 ρ,
      slack_coreCon (by omega), slack_coreCon (by omega), h4]
    have hsplit := outs_append T p.2.root 2 p.2.oidx (T.len p.2.root - (p.2.oidx + 1))
    rw [show p.2.oidx + (T.len p.2.root - (p.2.oidx + 1)) = T.len p.2.root - 1 by omega,
      show 2 + p.2.oidx = p.2.oidx + 2 by omega] at hsplit
    rw [← hsplit, valSum_append, show p.2.oidx + 1 - 1 = p.2.oidx by omega]
    simp only [restSum, List.map_cons, List.sum_cons]
    ring

theorem tight_sum {db : ConDb AnyVar} {ρ : AnyVar → Bool} (ho : OutputsRight T ρ) (hρ : ∀ c ∈ live db, c.Holds ρ) :
    ∀ {l : List (Nat × Nat)}, (∀ p ∈ l, ∃ c, db.get p.1 = some c ∧ Tight T c) → trackSum db l ρ = 0
  | [], _ => rfl
  | p :: l, h => by
    obtain ⟨c, h1, h2⟩ := h p (List.mem_cons_self ..)
    rw [trackSum_cons, slackAt_some h1, h2 ρ ho (hρ c (mem_live_of_get h1)),
      tight_sum ho hρ fun q hq => h q (List.mem_cons_of_mem _ hq)]
    simp

theorem refs_sum {db : ConDb AnyVar} {ρ : AnyVar → Bool} (ho : OutputsRight T ρ) (hρ : ∀ c ∈ live db, c.Holds ρ) :
    ∀ {rs : List (Lit × LogRef)}, (∀ p ∈ rs, (T.leafs p.2.root).length = T.len p.2.root ∧ p.2.oidx + 1 ≤ T.len p.2.root ∧
      ∃ c, db.get p.2.proofId = some c ∧ LbCon.Same c (coreCon T p.2.root (p.2.oidx + 1))) →
    trackSum db (rs.map fun p => (p.2.proofId, p.2.totWeight)) ρ = restSum T rs ρ
  | [], _ => rfl
  | p :: rs, h => by
    obtain ⟨h1, h2, c, h3, h4⟩ := h p (List.mem_cons_self ..)
    have h5 := leaf_of_holds (by omega) h4 (hρ c (mem_live_of_get h3))
    have h6 := coreCon_zero h1 (by omega) (ho p.2.root) h5
    rw [List.map_cons, trackSum_cons, slackAt_some h3, refs_sum ho hρ fun q hq => h q (List.mem_cons_of_mem _ hq), h4 ρ,
      slack_coreCon (by omega)]
    rw [slack_coreCon (by omega)] at h6
    have hsplit := outs_append T p.2.root 2 p.2.oidx (T.len p.2.root - (p.2.oidx + 1))
    rw [show p.2.oidx + (T.len p.2.root - (p.2.oidx + 1)) = T.len p.2.root - 1 by omega,
      show 2 + p.2.oidx = p.2.oidx + 2 by omega] at hsplit
    rw [← hsplit, valSum_append] at h6
    simp only [restSum, List.map_cons, List.sum_cons, show p.2.oidx + 1 - 1 = p.2.oidx by omega]
    rw [show (leafSum T p.2.root ρ : Int) - valSum (outs T p.2.root 2 p.2.oidx) ρ - 1 =
      valSum (outs T p.2.root (p.2.oidx + 2) (T.len p.2.root - (p.2.oidx + 1))) ρ by linarith]

/-- The reformulation has no slack if the outputs are right. -/
theorem reform_zero {obj : Objective} {st : OllLog} (hi : OllInv T obj st (fun _ => 0)) (he : st.cores = [])
    {ρ : AnyVar → Bool} (hρ : ∀ c ∈ live st.proof.db, c.Holds ρ) (ho : OutputsRight T ρ) :
    (reformCon obj T st).slack ρ = 0 := by
  have h1 := hi.sum ρ
  have htr : tracked st = st.refs.map (fun p => (p.2.proofId, p.2.totWeight)) ++ st.reformIds := by
    unfold tracked; rw [he]; simp
  rw [htr, trackSum_append, tight_sum ho hρ hi.done,
    refs_sum ho hρ fun p hp => ⟨hi.leafs p hp, (hi.range p hp).2.1, hi.con p hp⟩] at h1
  rw [slack_reformCon]
  linarith

/-- The end of the search. -/
theorem logFinal_spec {obj : Objective} {st st' : OllLog} {id : Option Nat} (hT : TotContract T)
    (hi : OllInv T obj st (fun _ => 0)) (he : OllEnd T st) (h : logFinal T st = some (id, st')) :
    WritesPf ord st.proof st'.proof ∧ reformCon obj T st' = reformCon obj T st ∧ st'.inactives = st.inactives ∧
      st'.offset = st.offset ∧
      match id with
      | some id => ∃ c, st'.proof.db.get id = some c ∧ LbCon.Same c (reformCon obj T st')
      | none => ∀ ρ, (reformCon obj T st').slack ρ = 0 := by
  unfold logFinal at h
  obtain ⟨⟨rs', pf⟩, h1, h⟩ := Option.bind_eq_some_iff.1 h
  have htr : tracked st = st.refs.map (fun p => (p.2.proofId, p.2.totWeight)) ++ st.reformIds := by
    unfold tracked; rw [he.1]; simp
  have hids := hi.ids
  rw [htr, List.map_append, List.nodup_append] at hids
  simp only [List.map_map, Function.comp_def] at hids
  have hcon : ∀ p ∈ st.refs, 1 ≤ p.2.oidx ∧ p.2.oidx + 1 ≤ T.len p.2.root ∧
      ∃ c, st.proof.db.get p.2.proofId = some c ∧ LbCon.Same c (coreCon T p.2.root (p.2.oidx + 1)) := fun p hp =>
    ⟨(hi.range p hp).1, (hi.range p hp).2.1, hi.con p hp⟩
  obtain ⟨g1, g2, g3⟩ := logExact_spec (ord := ord) hT hids.1 hcon (fun p hp v h2 h3 => by
    obtain ⟨sem, d, c, q1, q2, q3, q4⟩ := he.2 p hp v h2 h3
    refine ⟨sem, d, c, q1, q2, fun hx => q3 ?_, q4⟩
    rw [htr, List.map_append]
    refine List.mem_append_left _ ?_
    simpa [List.map_map, Function.comp_def] using hx) h1
  have hreform : ∀ p ∈ st.reformIds, pf.db.get p.1 = st.proof.db.get p.1 ∧ (st.proof.db.get p.1).isSome := by
    intro p hp
    have hl := hi.live p (by rw [htr]; exact List.mem_append_right _ hp)
    obtain ⟨c, hc⟩ := Option.isSome_iff_exists.1 hl
    refine ⟨?_, hl⟩
    rw [hc]
    exact g2 _ _ hc fun hx => hids.2.2 _ hx _ (List.mem_map.2 ⟨p, hp, rfl⟩) rfl
  have hrest : ∀ (rs rs' : List (Lit × LogRef)), List.Forall₂ (fun p p' => p'.1 = p.1 ∧ p'.2.root = p.2.root ∧
        p'.2.oidx = p.2.oidx ∧ p'.2.totWeight = p.2.totWeight ∧
        ∃ c, pf.db.get p'.2.proofId = some c ∧ LbCon.Same c (coreCon T p.2.root (T.len p.2.root))) rs rs' →
      (rs'.flatMap fun p => (outs T p.2.root (p.2.oidx + 2) (T.len p.2.root - (p.2.oidx + 1))).map fun o =>
        (-(p.2.totWeight : Int), toAxm o)) =
      rs.flatMap fun p => (outs T p.2.root (p.2.oidx + 2) (T.len p.2.root - (p.2.oidx + 1))).map fun o =>
        (-(p.2.totWeight : Int), toAxm o) := by
    intro rs rs' hf
    induction hf with
    | nil => rfl
    | cons hp _ ih =>
      obtain ⟨_, h2, h3, h4, _⟩ := hp
      rw [List.flatMap_cons, List.flatMap_cons, ih, h2, h3, h4]
  have hlive' : ∀ p ∈ st.reformIds ++ rs'.map (fun p => (p.2.proofId, p.2.totWeight)), (pf.db.get p.1).isSome := by
    intro p hp
    rcases List.mem_append.1 hp with hp | hp
    · rw [(hreform p hp).1]; exact (hreform p hp).2
    · obtain ⟨q, hq, rfl⟩ := List.mem_map.1 hp
      have g4 := g3
      clear * - g4 hq
      generalize st.refs = rs at g4
      induction g4 with
      | nil => cases hq
      | cons hp _ ih =>
        rcases List.mem_cons.1 hq with rfl | hq
        · obtain ⟨_, _, _, _, c, h5, _⟩ := hp
          simp only; rw [h5]; rfl
        · exact ih hq
  have hsum : ∀ ρ, trackSum pf.db (st.reformIds ++ rs'.map fun p => (p.2.proofId, p.2.totWeight)) ρ =
      (reformCon obj T st).slack ρ := by
    intro ρ
    rw [trackSum_append, trackSum_congr (fun p hp => (hreform p hp).1), exact_sum hcon g3, slack_reformCon]
    have h2 := hi.sum ρ
    rw [htr, trackSum_append] at h2
    linarith
  have hcong : ∀ pf', reformCon obj T { st with refs := rs', proof := pf' } = reformCon obj T st := fun pf' => by
    unfold reformCon
    simp only
    rw [hrest _ _ g3]
  rcases sumOps_eval hlive' with ⟨h2, h3⟩ | ⟨h2, c, h3, h4⟩
  · dsimp only at h
    rw [if_pos h3] at h
    simp only [Option.some.injEq, Prod.mk.injEq] at h
    obtain ⟨rfl, rfl⟩ := h
    refine ⟨g1, hcong _, rfl, rfl, fun ρ => ?_⟩
    rw [hcong, ← hsum ρ, h2]
    simp [trackSum]
  · dsimp only at h
    rw [if_neg h2] at h
    simp only [Option.some.injEq, Prod.mk.injEq] at h
    obtain ⟨rfl, rfl⟩ := h
    generalize hops : sumOps (st.reformIds ++ rs'.map fun p => (p.2.proofId, p.2.totWeight)) = ops at *
    have hw : WritesPf ord pf (pf.write (.pol ops)) := WritesPf.write (by simp [StepOk, h3])
    have hnew : (pf.write (.pol ops)).db.get (pf.db.length + 1) = some c := get_write_pol h3
    have hsame : ∀ pf', LbCon.Same c (reformCon obj T { st with refs := rs', proof := pf' }) := fun pf' ρ => by
      rw [hcong, h4 ρ, hsum ρ]
    refine ⟨?_, hcong _, rfl, rfl, c, ?_, hsame _⟩
    · refine g1.trans ?_
      show WritesPf ord pf (if st.reformIds.isEmpty then pf.write (.pol ops) else
        (pf.write (.pol ops)).write (.del (st.reformIds.map Prod.fst) []))
      split
      · exact hw
      · refine hw.trans (WritesPf.write ?_)
        intro j hj
        obtain ⟨p, hp, rfl⟩ := List.mem_map.1 hj
        have := hlive' p (List.mem_append_left _ hp)
        rw [get_write_pol_old this]
        exact this
    · show (if st.reformIds.isEmpty then pf.write (.pol ops) else
        (pf.write (.pol ops)).write (.del (st.reformIds.map Prod.fst) [])).db.get (pf.db.length + 1) = some c
      split
      · exact hnew
      · show ConDb.get (ConDb.delete (pf.write (.pol ops)).db _) _ = _
        rw [ConDb.get_delete ?_, hnew]
        intro hj
        obtain ⟨p, hp, he⟩ := List.mem_map.1 hj
        obtain ⟨k, hk⟩ := Option.isSome_iff_exists.1 (hlive' p (List.mem_append_left _ hp))
        have := (ConDb.get_lt hk).2
        omega

end Scuttle
