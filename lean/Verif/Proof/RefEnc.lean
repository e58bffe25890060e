import Verif.Proof.Inv
import Verif.SpecRun

/-!
# A reference encoding and a reference oracle

An encoding that meets the contract `LawfulUbEnc`, and an oracle by exhaustive search that meets `CorrectOracle`. They
show that the assumptions of the theorems can be met, and make it possible to run the model. They do not model code of
`/repo`.
-/

namespace Scuttle

open Spec

/-- Clauses that say that the weights of the true literals sum up to at most `b`. -/
def atMost : List (Lit × Nat) → Nat → List Clause
  | [], _ => []
  | (l, w) :: ls, b =>
    (if b < w then [[l.not]] else (atMost ls (b - w)).map (l.not :: ·)) ++ atMost ls b

theorem cnfEval_map_cons (m : Asg) (l : Lit) (cs : List Clause) :
    cnfEval m (cs.map (l :: ·)) = (l.eval m || cnfEval m cs) := by
  induction cs with
  | nil => simp [cnfEval]
  | cons c cs ih =>
    simp only [List.map_cons, cnfEval, List.all_cons] at ih ⊢
    rw [ih]
    simp only [clauseEval, List.any_cons]
    cases l.eval m <;> simp

theorem cnfEval_atMost (m : Asg) (ls : List (Lit × Nat)) (b : Nat) :
    cnfEval m (atMost ls b) = true ↔ linear m ls ≤ b := by
  induction ls generalizing b with
  | nil => simp [atMost, linear, cnfEval]
  | cons p ls ih =>
    obtain ⟨l, w⟩ := p
    simp only [atMost, linear]
    rw [cnfEval_append, ih]
    by_cases hl : LitTrue m l
    · have hle : l.eval m = true := (Lit.eval_iff m l).2 hl
      rw [if_pos hl]
      split
      · next h => simp [cnfEval, clauseEval, hle]; omega
      · next h =>
        rw [cnfEval_map_cons, Bool.or_eq_true, ih]
        simp [hle]; omega
    · have hle : l.eval m = false := by
        rw [← Bool.not_eq_true, Lit.eval_iff]; exact hl
      rw [if_neg hl]
      split
      · next h => simp [cnfEval, clauseEval, hle]
      · next h =>
        rw [cnfEval_map_cons, Bool.or_eq_true]
        simp [hle]

theorem atMost_vars {n : Nat} (ls : List (Lit × Nat)) (b : Nat) (h : ∀ p ∈ ls, p.1.var < n) : VarsBelow n (atMost ls b) := by
  induction ls generalizing b with
  | nil => intro c hc; simp [atMost] at hc
  | cons p ls ih =>
    obtain ⟨l, w⟩ := p
    have hl : l.var < n := h (l, w) (by simp)
    have ih' := fun b => ih b fun p hp => h p (by simp [hp])
    intro c hc
    simp only [atMost, List.mem_append] at hc
    rcases hc with hc | hc
    · split at hc
      · simp only [List.mem_singleton] at hc
        subst hc
        simpa using hl
      · obtain ⟨c', h1, rfl⟩ := List.mem_map.1 hc
        intro l' hl'
        rcases List.mem_cons.1 hl' with rfl | hl'
        · simpa using hl
        · exact ih' _ c' h1 l' hl'
    · exact ih' b c hc

/-- Sums that the reference encoding can be used for. -/
class RefSum (S : Type) where
  ofLits : List (Lit × Nat) → S
  val : S → Asg → Nat
  maxV : S → Nat
  BelowS : S → Nat → Prop
  atMost : S → Nat → List Clause
  val_ofLits : ∀ l m, val (ofLits l) m = linear m l
  maxV_ofLits : ∀ l, maxV (ofLits l) = (l.map Prod.snd).sum
  below_ofLits : ∀ l n, (∀ p ∈ l, p.1.var < n) → BelowS (ofLits l) n
  below_mono : ∀ e n n', BelowS e n → n ≤ n' → BelowS e n'
  val_local : ∀ e n m m', BelowS e n → AgreeBelow n m m' → val e m = val e m'
  val_le : ∀ e m, val e m ≤ maxV e
  atMost_eval : ∀ e m b, cnfEval m (atMost e b) = true ↔ val e m ≤ b
  atMost_vars : ∀ e n b, BelowS e n → VarsBelow n (atMost e b)

theorem linear_le_sum (ls : List (Lit × Nat)) (m : Asg) : linear m ls ≤ (ls.map Prod.snd).sum := by
  induction ls with
  | nil => simp [linear]
  | cons p ls ih =>
    obtain ⟨l, w⟩ := p
    simp only [linear, List.map_cons, List.sum_cons]
    split <;> omega

instance : RefSum (List (Lit × Nat)) where
  ofLits l := l
  val l m := linear m l
  maxV l := (l.map Prod.snd).sum
  BelowS l n := ∀ p ∈ l, p.1.var < n
  atMost := atMost
  val_ofLits _ _ := rfl
  maxV_ofLits _ := rfl
  below_ofLits _ _ h := h
  below_mono _ _ _ h hn p hp := Nat.lt_of_lt_of_le (h p hp) hn
  val_local _ _ _ _ h ha := linear_congr fun p hp => ha _ (h p hp)
  val_le := linear_le_sum
  atMost_eval e m b := cnfEval_atMost m e b
  atMost_vars e _ b h := atMost_vars e b h

/-- Reference encoding: the encoded sum and, for each bound `b` encoded so far, the first of `k + 1` variables that are
true if the sum exceeds `b`. -/
structure RefEncS (S : Type) (k : Nat) where
  lits : S
  outs : List (Nat × Nat)

/-- Reference encoding of a sum given by its literals. -/
abbrev RefEnc (k : Nat) := RefEncS (List (Lit × Nat)) k

namespace RefEncS

variable {S : Type} [RefSum S] {k : Nat}

/-- Largest value of the sum. -/
def maxV (e : RefEncS S k) : Nat := RefSum.maxV e.lits

/-- Clauses for the `k + 1` outputs of one bound. -/
def outClauses (e : RefEncS S k) (b n : Nat) : List Clause :=
  (List.range (k + 1)).flatMap fun j => (RefSum.atMost e.lits b).map (Lit.pos (n + j) :: ·)

/-- Encodes the given bounds. -/
def encodeList (e : RefEncS S k) : List Nat → Nat → RefEncS S k × List Clause × Nat
  | [], n => (e, [], n)
  | b :: bs, n =>
    let r := encodeList ⟨e.lits, e.outs ++ [(b, n)]⟩ bs (n + k + 1)
    (r.1, e.outClauses b n ++ r.2.1, r.2.2)

/-- Outputs of the bound `b`. -/
def find (b : Nat) : List (Nat × Nat) → Option Nat
  | [] => none
  | (b', v) :: os => if b' = b then some v else find b os

instance : UbEnc (RefEncS S k) where
  ofLits l := ⟨RefSum.ofLits l, []⟩
  reserve e n := (e, n)
  encode e lo hi n := e.encodeList (List.range' lo (min hi e.maxV - lo)) n
  enforce e b :=
    if e.maxV ≤ b then some []
    else (find b e.outs).map fun v => (List.range (k + 1)).map fun j => (Lit.pos (v + j)).not
  nextHigher _ b := b + 1

def SoundE (e : RefEncS S k) (m : Asg) : Prop :=
  ∀ p ∈ e.outs, ∀ j, j ≤ k → m (p.2 + j) = false → RefSum.val e.lits m ≤ p.1

def ExactE (e : RefEncS S k) (m : Asg) : Prop :=
  ∀ p ∈ e.outs, ∀ j, j ≤ k → m (p.2 + j) = decide (p.1 < RefSum.val e.lits m)

def BelowE (e : RefEncS S k) (n : Nat) : Prop := RefSum.BelowS e.lits n ∧ ∀ p ∈ e.outs, p.2 + k < n

def ReadyE (e : RefEncS S k) (b : Nat) : Prop := e.maxV ≤ b ∨ ∃ v, (b, v) ∈ e.outs

theorem find_some {b : Nat} {os : List (Nat × Nat)} {v : Nat} (h : find b os = some v) : (b, v) ∈ os := by
  induction os with
  | nil => simp [find] at h
  | cons p os ih =>
    obtain ⟨b', v'⟩ := p
    simp only [find] at h
    split at h
    · next hb => simp at h; simp [hb, h]
    · exact List.mem_cons_of_mem _ (ih h)

theorem find_isSome {b v : Nat} {os : List (Nat × Nat)} (h : (b, v) ∈ os) : ∃ v', find b os = some v' := by
  induction os with
  | nil => simp at h
  | cons p os ih =>
    obtain ⟨b', v'⟩ := p
    simp only [find]
    split
    · exact ⟨_, rfl⟩
    · next hb =>
      rcases List.mem_cons.1 h with h | h
      · simp only [Prod.mk.injEq] at h
        exact absurd h.1.symm hb
      · exact ih h

theorem encodeList_lits (bs : List Nat) (e : RefEncS S k) (n : Nat) : (e.encodeList bs n).1.lits = e.lits := by
  induction bs generalizing e n with
  | nil => rfl
  | cons b bs ih => simp only [encodeList]; rw [ih]

theorem encodeList_next (bs : List Nat) (e : RefEncS S k) (n : Nat) : n ≤ (e.encodeList bs n).2.2 := by
  induction bs generalizing e n with
  | nil => exact Nat.le_refl _
  | cons b bs ih =>
    simp only [encodeList]
    have := ih ⟨e.lits, e.outs ++ [(b, n)]⟩ (n + k + 1)
    omega

theorem below_step {e : RefEncS S k} {n : Nat} (b : Nat) (h : e.BelowE n) :
    BelowE (⟨e.lits, e.outs ++ [(b, n)]⟩ : RefEncS S k) (n + k + 1) := by
  refine ⟨RefSum.below_mono _ _ _ h.1 (by omega), fun p hp => ?_⟩
  rcases List.mem_append.1 hp with hp | hp
  · have := h.2 p hp; omega
  · simp only [List.mem_singleton] at hp
    subst hp
    simp only
    omega

theorem encodeList_below (bs : List Nat) (e : RefEncS S k) (n : Nat) (h : e.BelowE n) :
    (e.encodeList bs n).1.BelowE (e.encodeList bs n).2.2 := by
  induction bs generalizing e n with
  | nil => exact h
  | cons b bs ih => exact ih _ _ (below_step b h)

theorem outClauses_vars {e : RefEncS S k} {n : Nat} (b : Nat) (h : e.BelowE n) : VarsBelow (n + k + 1) (e.outClauses b n) := by
  intro c hc l hl
  simp only [outClauses, List.mem_flatMap, List.mem_range, List.mem_map] at hc
  obtain ⟨j, hj, c', hc', rfl⟩ := hc
  rcases List.mem_cons.1 hl with rfl | hl
  · simp only [Lit.pos_var]; omega
  · have := RefSum.atMost_vars e.lits _ b h.1 c' hc' l hl
    omega

theorem encodeList_vars (bs : List Nat) (e : RefEncS S k) (n : Nat) (h : e.BelowE n) :
    VarsBelow (e.encodeList bs n).2.2 (e.encodeList bs n).2.1 := by
  induction bs generalizing e n with
  | nil => intro c hc; simp [encodeList] at hc
  | cons b bs ih =>
    intro c hc l hl
    simp only [encodeList, List.mem_append] at hc
    have hn := encodeList_next (k := k) bs ⟨e.lits, e.outs ++ [(b, n)]⟩ (n + k + 1)
    rcases hc with hc | hc
    · have := outClauses_vars b h c hc l hl
      simp only [encodeList]
      omega
    · exact ih _ _ (below_step b h) c hc l hl

theorem outClauses_eval {e : RefEncS S k} {m : Asg} {b n : Nat} : cnfEval m (e.outClauses b n) = true ↔
    ∀ j, j ≤ k → m (n + j) = true ∨ RefSum.val e.lits m ≤ b := by
  unfold outClauses
  rw [← RefSum.atMost_eval]
  constructor
  · intro h j hj
    have : cnfEval m ((RefSum.atMost e.lits b).map (Lit.pos (n + j) :: ·)) = true := by
      simp only [cnfEval, List.all_eq_true] at h ⊢
      intro c hc
      exact h c (List.mem_flatMap.2 ⟨j, by simp; omega, hc⟩)
    rw [cnfEval_map_cons, Bool.or_eq_true, Lit.eval_pos] at this
    exact this
  · intro h
    simp only [cnfEval, List.all_eq_true, List.mem_flatMap, List.mem_range]
    rintro c ⟨j, hj, hc⟩
    have h1 := h j (by omega)
    rw [← Lit.eval_pos m (n + j), ← Bool.or_eq_true, ← cnfEval_map_cons] at h1
    simp only [cnfEval, List.all_eq_true] at h1
    exact h1 c hc

theorem encodeList_sound (bs : List Nat) (e : RefEncS S k) (n : Nat) (m : Asg) (h : e.SoundE m)
    (hc : cnfEval m (e.encodeList bs n).2.1 = true) : (e.encodeList bs n).1.SoundE m := by
  induction bs generalizing e n with
  | nil => exact h
  | cons b bs ih =>
    simp only [encodeList] at hc ⊢
    rw [cnfEval_append] at hc
    refine ih _ _ ?_ hc.2
    intro p hp j hj hm
    rcases List.mem_append.1 hp with hp | hp
    · exact h p hp j hj hm
    · simp only [List.mem_singleton] at hp
      subst hp
      rcases outClauses_eval.1 hc.1 j hj with h1 | h1
      · simp [h1] at hm
      · exact h1

theorem encodeList_exact (bs : List Nat) (e : RefEncS S k) (n : Nat) (m : Asg) (hb : e.BelowE n) (h : e.ExactE m) :
    ∃ m', AgreeBelow n m m' ∧ cnfEval m' (e.encodeList bs n).2.1 = true ∧ (e.encodeList bs n).1.ExactE m' := by
  induction bs generalizing e n m with
  | nil => exact ⟨m, fun _ _ => rfl, by simp [encodeList, cnfEval], h⟩
  | cons b bs ih =>
    let m1 : Asg := fun v => if n ≤ v then decide (b < RefSum.val e.lits m) else m v
    have hag : AgreeBelow n m m1 := fun v hv => by simp only [m1]; rw [if_neg (by omega)]
    have hlin : RefSum.val e.lits m1 = RefSum.val e.lits m := (RefSum.val_local _ _ _ _ hb.1 hag).symm
    have hex : ExactE (⟨e.lits, e.outs ++ [(b, n)]⟩ : RefEncS S k) m1 := by
      intro p hp j hj
      simp only [hlin]
      rcases List.mem_append.1 hp with hp | hp
      · have := hb.2 p hp
        rw [← hag _ (by omega)]
        exact h p hp j hj
      · simp only [List.mem_singleton] at hp
        subst hp
        simp only [m1]
        rw [if_pos (by omega)]
    obtain ⟨m2, h1, h2, h3⟩ := ih ⟨e.lits, e.outs ++ [(b, n)]⟩ (n + k + 1) m1 (below_step b hb) hex
    refine ⟨m2, fun v hv => by rw [hag v hv]; exact h1 v (by omega), ?_, h3⟩
    simp only [encodeList]
    rw [cnfEval_append]
    refine ⟨outClauses_eval.2 fun j hj => ?_, h2⟩
    have h4 : RefSum.val e.lits m2 = RefSum.val e.lits m1 :=
      (RefSum.val_local _ _ _ _ (RefSum.below_mono _ _ (n + k + 1) hb.1 (by omega)) h1).symm
    rw [h4, hlin, ← h1 (n + j) (by omega)]
    simp only [m1]
    rw [if_pos (by omega)]
    simp only [decide_eq_true_eq]
    omega

theorem encodeList_outs (bs : List Nat) (e : RefEncS S k) (n : Nat) :
    (∀ p ∈ e.outs, p ∈ (e.encodeList bs n).1.outs) ∧ ∀ b ∈ bs, ∃ v, (b, v) ∈ (e.encodeList bs n).1.outs := by
  induction bs generalizing e n with
  | nil => exact ⟨fun p hp => hp, by simp⟩
  | cons b bs ih =>
    obtain ⟨h1, h2⟩ := ih ⟨e.lits, e.outs ++ [(b, n)]⟩ (n + k + 1)
    simp only [encodeList]
    refine ⟨fun p hp => h1 p (by simp [hp]), fun b' hb' => ?_⟩
    rcases List.mem_cons.1 hb' with rfl | hb'
    · exact ⟨n, h1 _ (by simp)⟩
    · exact h2 b' hb'

theorem linear_le_maxV (e : RefEncS S k) (m : Asg) : RefSum.val e.lits m ≤ e.maxV := RefSum.val_le _ _

theorem maxV_encodeList (bs : List Nat) (e : RefEncS S k) (n : Nat) : (e.encodeList bs n).1.maxV = e.maxV := by
  unfold maxV; rw [encodeList_lits]

instance : LawfulUbEnc (RefEncS S k) where
  val e m := RefSum.val e.lits m
  maxVal := maxV
  Sound := SoundE
  Exact := ExactE
  Ready := ReadyE
  Below := BelowE
  val_ofLits := RefSum.val_ofLits
  maxVal_ofLits := RefSum.maxV_ofLits
  sound_ofLits _ _ := by intro p hp; simp [UbEnc.ofLits] at hp
  exact_ofLits _ _ := by intro p hp; simp [UbEnc.ofLits] at hp
  below_ofLits l n h := ⟨RefSum.below_ofLits l n h, by intro p hp; simp [UbEnc.ofLits] at hp⟩
  below_mono e n n' h hn := ⟨RefSum.below_mono _ _ _ h.1 hn, fun p hp => Nat.lt_of_lt_of_le (h.2 p hp) hn⟩
  exact_local e n m m' hb ha h := by
    intro p hp j hj
    have := hb.2 p hp
    rw [← ha _ (by omega), ← RefSum.val_local _ _ _ _ hb.1 ha]
    exact h p hp j hj
  val_local e n m m' hb ha := RefSum.val_local _ _ _ _ hb.1 ha
  reserve_next _ _ _ := Nat.le_refl _
  reserve_below _ _ h := h
  reserve_val _ _ _ := rfl
  reserve_maxVal _ _ := rfl
  reserve_sound _ _ _ h := h
  reserve_exact _ _ m _ h := ⟨m, fun _ _ => rfl, h⟩
  encode_next e lo hi n _ := encodeList_next _ e n
  encode_below e lo hi n h := encodeList_below _ e n h
  encode_vars e lo hi n h := encodeList_vars _ e n h
  encode_val e lo hi n m := by
    show RefSum.val (e.encodeList _ n).1.lits m = _
    rw [encodeList_lits]
  encode_maxVal e lo hi n := maxV_encodeList _ e n
  encode_sound e lo hi n m _ h hc := encodeList_sound _ e n m h hc
  encode_exact e lo hi n m hb h := encodeList_exact _ e n m hb h
  encode_exact_mono e lo hi n m h := by
    intro p hp j hj
    have h1 := h p ((encodeList_outs _ e n).1 p hp) j hj
    have h2 : (UbEnc.encode e lo hi n).1.lits = e.lits := encodeList_lits _ e n
    rw [h2] at h1
    exact h1
  encode_ready e lo hi n b h1 h2 := by
    by_cases hm : e.maxV ≤ b
    · exact .inl (by rw [show (UbEnc.encode e lo hi n).1.maxV = e.maxV from maxV_encodeList _ e n]; exact hm)
    · refine .inr ((encodeList_outs _ e n).2 b ?_)
      simp only [List.mem_range'_1]
      omega
  encode_ready_mono e lo hi n b h := by
    rcases h with h | ⟨v, h⟩
    · exact .inl (by rw [show (UbEnc.encode e lo hi n).1.maxV = e.maxV from maxV_encodeList _ e n]; exact h)
    · exact .inr ⟨v, (encodeList_outs _ e n).1 _ h⟩
  enforce_ok e b n hr hb := by
    simp only [UbEnc.enforce]
    split
    · exact ⟨[], rfl, by intro l hl; simp at hl⟩
    · next hm =>
      obtain ⟨v, hv⟩ := hr.resolve_left hm
      obtain ⟨v', hv'⟩ := find_isSome hv
      refine ⟨_, by rw [hv']; rfl, ?_⟩
      intro l hl
      obtain ⟨j, hj, rfl⟩ := List.mem_map.1 hl
      have := hb.2 _ (find_some hv')
      simp only [List.mem_range] at hj
      simp only [Lit.not_var, Lit.pos_var]
      omega
  enforce_sound e b ls m hr he hs hc := by
    simp only [UbEnc.enforce] at he
    split at he
    · next hm => exact Nat.le_trans (linear_le_maxV e m) hm
    · cases hf : find b e.outs with
      | none => rw [hf] at he; simp at he
      | some v =>
        rw [hf] at he
        simp only [Option.map_some, Option.some.injEq] at he
        subst he
        refine hs _ (find_some hf) 0 (Nat.zero_le _) ?_
        simp only [cubeEval, List.all_eq_true, List.mem_map, List.mem_range] at hc
        have := hc _ ⟨0, by omega, rfl⟩
        simpa using this
  enforce_exact e b ls m hr he hx hv := by
    simp only [UbEnc.enforce] at he
    split at he
    · simp only [Option.some.injEq] at he; subst he; rfl
    · cases hf : find b e.outs with
      | none => rw [hf] at he; simp at he
      | some v =>
        rw [hf] at he
        simp only [Option.map_some, Option.some.injEq] at he
        subst he
        simp only [cubeEval, List.all_eq_true, List.mem_map, List.mem_range]
        rintro l ⟨j, hj, rfl⟩
        have h1 := hx _ (find_some hf) j (by omega)
        simp only at h1
        rw [Lit.eval_not, Lit.eval_pos, h1]
        simp only [Bool.not_eq_true', decide_eq_false_iff_not]
        omega
  enforce_max e b _ h := by simp only [UbEnc.enforce]; rw [if_pos h]
  nextHigher_lt e b _ := Nat.lt_succ_self b
  nextHigher_le e b m h := h

end RefEncS

/-! ## Oracle -/

/-- Simplifies clauses under the assumption that `l` is true. -/
def assign (l : Lit) (cs : List Clause) : List Clause :=
  (cs.filter fun c => !c.contains l).map fun c => c.filter fun l' => l' != l.not

/-- Number of literals. -/
def litCount (cs : List Clause) : Nat := (cs.map List.length).sum

/-- Literal to branch on: that of a unit clause or else the first. -/
def pick (cs : List Clause) : Option Lit :=
  match cs.find? fun c => c.length == 1 with
  | some (l :: _) => some l
  | _ => match cs with
    | (l :: _) :: _ => some l
    | _ => none

/-- Makes a literal true. -/
def setLit (m : Asg) (l : Lit) : Asg := fun v => if v = l.var then !l.neg else m v

/-- Backtracking search for a model. -/
def dpll : Nat → List Clause → Option Asg
  | 0, cs => if cs.isEmpty then some fun _ => false else none
  | n + 1, cs =>
    if cs.any List.isEmpty then none
    else match pick cs with
      | none => some fun _ => false
      | some l => match dpll n (assign l cs) with
        | some m => some (setLit m l)
        | none => (dpll n (assign l.not cs)).map (setLit · l.not)

theorem setLit_self (m : Asg) (l : Lit) : l.eval (setLit m l) = true := by
  simp [Lit.eval, setLit]

theorem setLit_eval (m : Asg) (l l' : Lit) (h1 : l' ≠ l.not) (h : l'.eval m = true) : l'.eval (setLit m l) = true := by
  by_cases hv : l'.var = l.var
  · have : l' = l := by
      obtain ⟨v, n⟩ := l'
      obtain ⟨v', n'⟩ := l
      simp only [Lit.not, ne_eq, Lit.mk.injEq, not_and] at h1 hv ⊢
      refine ⟨hv, ?_⟩
      have := h1 hv
      cases n <;> cases n' <;> simp_all
    rw [this]
    exact setLit_self m l
  · simpa [Lit.eval, setLit, hv] using h

theorem assign_sound {m : Asg} {l : Lit} {cs : List Clause} (h : cnfEval m (assign l cs) = true) :
    cnfEval (setLit m l) cs = true := by
  simp only [cnfEval, List.all_eq_true] at h ⊢
  intro c hc
  simp only [clauseEval, List.any_eq_true]
  by_cases hl : l ∈ c
  · exact ⟨l, hl, setLit_self m l⟩
  · have := h (c.filter fun l' => l' != l.not) (List.mem_map.2 ⟨c, by simp [hc, hl], rfl⟩)
    simp only [clauseEval, List.any_eq_true, List.mem_filter, bne_iff_ne] at this
    obtain ⟨l', ⟨h1, h2⟩, h3⟩ := this
    exact ⟨l', h1, setLit_eval m l l' h2 h3⟩

theorem assign_complete {m : Asg} {l : Lit} {cs : List Clause} (hl : l.eval m = true) (h : cnfEval m cs = true) :
    cnfEval m (assign l cs) = true := by
  simp only [cnfEval, List.all_eq_true] at h ⊢
  intro c hc
  obtain ⟨c', h1, rfl⟩ := List.mem_map.1 hc
  have := h c' (List.mem_filter.1 h1).1
  simp only [clauseEval, List.any_eq_true, List.mem_filter, bne_iff_ne] at this ⊢
  obtain ⟨l', h2, h3⟩ := this
  refine ⟨l', ⟨h2, ?_⟩, h3⟩
  rintro rfl
  rw [Lit.eval_not, hl] at h3
  simp at h3

theorem dpll_sound {n : Nat} {cs : List Clause} {m : Asg} (h : dpll n cs = some m) : cnfEval m cs = true := by
  induction n generalizing cs m with
  | zero =>
    simp only [dpll] at h
    split at h
    · next hc => simp only [List.isEmpty_iff] at hc; subst hc; rfl
    · simp at h
  | succ n ih =>
    simp only [dpll] at h
    split at h
    · simp at h
    · next hne =>
      split at h
      · next hp =>
        unfold pick at hp
        split at hp
        · simp at hp
        · split at hp
          · simp at hp
          · next hx =>
            cases cs with
            | nil => rfl
            | cons c cs =>
              cases c with
              | nil => simp at hne
              | cons l c => exact absurd rfl (hx l c cs)
      · next l hp =>
        split at h
        · next m1 h1 =>
          simp only [Option.some.injEq] at h
          subst h
          exact assign_sound (ih h1)
        · obtain ⟨m1, h1, rfl⟩ := Option.map_eq_some_iff.1 h
          exact assign_sound (ih h1)

theorem pick_mem {cs : List Clause} {l : Lit} (h : pick cs = some l) : ∃ c ∈ cs, l ∈ c := by
  unfold pick at h
  split at h
  · next c hf =>
    simp only [Option.some.injEq] at h
    subst h
    exact ⟨_, List.mem_of_find?_eq_some hf, by simp⟩
  · split at h
    · simp only [Option.some.injEq] at h
      subst h
      exact ⟨_, List.mem_cons_self, List.mem_cons_self⟩
    · simp at h

theorem litCount_assign_le (l : Lit) (cs : List Clause) : litCount (assign l cs) ≤ litCount cs := by
  induction cs with
  | nil => simp [assign, litCount]
  | cons c cs ih =>
    simp only [assign, litCount, List.filter_cons, List.map_cons, List.sum_cons] at ih ⊢
    have := List.length_filter_le (fun l' => l' != l.not) c
    split
    · simp only [List.map_cons, List.sum_cons]
      omega
    · omega

theorem litCount_assign_lt {l : Lit} {cs : List Clause} (h : ∃ c ∈ cs, l ∈ c ∨ l.not ∈ c) :
    litCount (assign l cs) < litCount cs := by
  obtain ⟨c, hc, hl⟩ := h
  induction cs with
  | nil => simp at hc
  | cons c' cs ih =>
    have hle := litCount_assign_le l cs
    have hle' := List.length_filter_le (fun l' => l' != l.not) c'
    rcases List.mem_cons.1 hc with rfl | hc
    · simp only [assign, litCount, List.filter_cons, List.map_cons, List.sum_cons] at hle ⊢
      by_cases hm : l ∈ c
      · rw [if_neg (by simp [hm])]
        have : 0 < c.length := List.length_pos_of_mem hm
        omega
      · rw [if_pos (by simp [hm])]
        simp only [List.map_cons, List.sum_cons]
        have hn := hl.resolve_left hm
        have : (c.filter fun l' => l' != l.not).length < c.length :=
          List.length_filter_lt_length_iff_exists.2 ⟨l.not, hn, by simp⟩
        omega
    · have := ih hc
      simp only [assign, litCount, List.filter_cons, List.map_cons, List.sum_cons] at this ⊢
      split
      · simp only [List.map_cons, List.sum_cons]
        omega
      · omega

theorem dpll_complete {n : Nat} {cs : List Clause} (hn : litCount cs ≤ n) (h : dpll n cs = none) (m : Asg) :
    cnfEval m cs = false := by
  induction n generalizing cs with
  | zero =>
    simp only [dpll] at h
    split at h
    · simp at h
    · next hc =>
      cases cs with
      | nil => simp at hc
      | cons c cs =>
        simp only [litCount, List.map_cons, List.sum_cons] at hn
        have : c = [] := List.length_eq_zero_iff.1 (by omega)
        subst this
        rfl
  | succ n ih =>
    simp only [dpll] at h
    split at h
    · next he =>
      simp only [List.any_eq_true, List.isEmpty_iff] at he
      obtain ⟨c, hc, rfl⟩ := he
      rw [← Bool.not_eq_true]
      intro hx
      simp only [cnfEval, List.all_eq_true] at hx
      have := hx [] hc
      simp [clauseEval] at this
    · split at h
      · simp at h
      · next l hp =>
        obtain ⟨c, hc, hlc⟩ := pick_mem hp
        have h1 := litCount_assign_lt (l := l) ⟨c, hc, .inl hlc⟩
        have h2 := litCount_assign_lt (l := l.not) ⟨c, hc, .inr (by simpa using hlc)⟩
        split at h
        · simp at h
        · next hnone =>
          rw [Option.map_eq_none_iff] at h
          have h3 := ih (by omega) hnone
          have h4 := ih (by omega) h
          rw [← Bool.not_eq_true]
          intro hx
          cases hl : l.eval m with
          | true => rw [assign_complete hl hx] at h3; simp at h3
          | false => rw [assign_complete (by rw [Lit.eval_not, hl]; rfl) hx] at h4; simp at h4

/-- Oracle by backtracking search; the core consists of all negated assumptions. -/
def refOracle (db : List Clause) (as : List Lit) : Answer :=
  let cs := as.map (fun l => [l]) ++ db
  match dpll (litCount cs) cs with
  | some m => .sat m
  | none => .unsat (as.map Lit.not)

/-- Flips the literal if all clauses stay satisfied without further changes. -/
def refFlip (db : List Clause) (m : Asg) (l : Lit) : Option Asg :=
  let m' : Asg := fun v => if v = l.var then !l.neg else m v
  if cnfEval m' db = true then some m' else none

theorem refOracle_correct {flag logOk : Nat → Bool} {debug tighten : Bool} :
    CorrectOracle {
      oracle := fun _ _ db as => refOracle db as
      flag := flag
      logOk := logOk
      debug := debug
      tighten := tighten
      flip := fun _ db _ m l => refFlip db m l } := by
  have hcnf : ∀ (m : Asg) (db : List Clause), cnfEval m db = true ↔ ∀ c ∈ db, ∃ l ∈ c, LitTrue m l := by
    intro m db
    simp [cnfEval, clauseEval, List.all_eq_true, List.any_eq_true, Lit.eval_iff]
  refine ⟨?_, ?_, ?_, ?_⟩
  · intro t lim db as m h
    simp only [refOracle] at h
    split at h
    · next m' hf =>
      simp only [Answer.sat.injEq] at h
      subst h
      have := (hcnf _ _).1 (dpll_sound hf)
      refine ⟨fun c hc => this c (by simp [hc]), fun l hl => ?_⟩
      obtain ⟨l', h1, h2⟩ := this [l] (by simp [hl])
      simp only [List.mem_singleton] at h1
      rw [← h1]; exact h2
    · simp at h
  · intro t lim db as core h
    simp only [refOracle] at h
    split at h
    · simp at h
    · next hf =>
      simp only [Answer.unsat.injEq] at h
      subst h
      refine ⟨fun l hl => ?_, fun m hm => ?_⟩
      · obtain ⟨l', hl', rfl⟩ := List.mem_map.1 hl
        simpa using hl'
      · have h1 := dpll_complete (Nat.le_refl _) hf m
        rw [← Bool.not_eq_true, cnfEval_append, not_and_or, Bool.not_eq_true] at h1
        replace h1 := h1.resolve_right (not_not_intro ((hcnf m db).2 hm))
        simp only [cnfEval, List.all_eq_false, List.mem_map] at h1
        obtain ⟨c, ⟨l, hl, rfl⟩, h2⟩ := h1
        refine ⟨l.not, List.mem_map.2 ⟨l, hl, rfl⟩, ?_⟩
        rw [← Lit.eval_iff, Lit.eval_not]
        simpa [clauseEval] using h2
  · intro t db as h
    simp only [refOracle] at h
    split at h <;> simp at h
  · intro t db frozen m l m' h _
    simp only [refFlip] at h
    split at h
    · next hc =>
      simp only [Option.some.injEq] at h
      subst h
      refine ⟨(hcnf _ _).1 hc, ?_, fun v _ hv => ?_⟩
      · unfold LitTrue
        cases l.neg <;> simp
      · simp [hv]
    · simp at h

/-- Environment with the reference oracle, never interrupted, with a logger that never fails. -/
def refEnv (debug : Bool := true) (tighten : Bool := false) : Env where
  oracle := fun _ _ db as => refOracle db as
  flag := fun _ => false
  logOk := fun _ => true
  debug := debug
  tighten := tighten
  flip := fun _ db _ m l => refFlip db m l

theorem refEnv_correct (debug : Bool) (tighten : Bool := false) : CorrectOracle (refEnv debug tighten) := refOracle_correct

end Scuttle
