import Verif.Proof.Basic

/-!
# C26: conversion of solutions, C44: dominance check
-/

namespace Scuttle

open Spec

/-- Sequential application of a stateful conversion to a list, used to specify `convert_solutions`. -/
inductive Converts {S S2 σ : Type} (conv : S → σ → S2 × σ) : List S → σ → List S2 → σ → Prop
  | nil (st) : Converts conv [] st [] st
  | cons {s sols st r rs st'} : r = (conv s st).1 → Converts conv sols (conv s st).2 rs st' →
      Converts conv (s :: sols) st (r :: rs) st'

theorem Converts.length_eq {S S2 σ : Type} {conv : S → σ → S2 × σ} {a : List S} {st : σ} {b : List S2} {st' : σ}
    (h : Converts conv a st b st') : b.length = a.length := by
  induction h with
  | nil => rfl
  | cons _ _ ih => simp [ih]

theorem converts_of_foldl {S S2 σ : Type} (conv : S → σ → S2 × σ) (sols : List S) (st : σ) (acc : List S2) :
    ∃ rs st', Converts conv sols st rs st' ∧
      sols.foldl (fun (acc : List S2 × σ) s => let q := conv s acc.2; (acc.1 ++ [q.1], q.2)) (acc, st)
        = (acc ++ rs, st') := by
  induction sols generalizing st acc with
  | nil => exact ⟨[], st, .nil st, by simp⟩
  | cons s sols ih =>
    obtain ⟨rs, st', hc, hf⟩ := ih (conv s st).2 (acc ++ [(conv s st).1])
    exact ⟨(conv s st).1 :: rs, st', .cons rfl hc, by simp only [List.foldl_cons, hf]; simp⟩

/-- Sequential conversion of a front, used to specify `convert_solutions`. -/
inductive ConvertsFront {S S2 σ : Type} (conv : S → σ → S2 × σ) : ParetoFront S → σ → ParetoFront S2 → σ → Prop
  | nil (st) : ConvertsFront conv [] st [] st
  | cons {p : NonDomPoint S} {q : NonDomPoint S2} {f f' st st' st''} : q.costs = p.costs →
      Converts conv p.sols st q.sols st' → ConvertsFront conv f st' f' st'' →
      ConvertsFront conv (p :: f) st (q :: f') st''

theorem convertsFront_of_foldl {S S2 σ : Type} (conv : S → σ → S2 × σ) (f : ParetoFront S) (st : σ) (acc : ParetoFront S2) :
    ∃ f' st', ConvertsFront conv f st f' st' ∧
      f.foldl (fun (acc : ParetoFront S2 × σ) p =>
        let q := p.convertSolutions conv acc.2; (acc.1 ++ [q.1], q.2)) (acc, st) = (acc ++ f', st') := by
  induction f generalizing st acc with
  | nil => exact ⟨[], st, .nil st, by simp⟩
  | cons p f ih =>
    obtain ⟨rs, st1, hc, hf⟩ := converts_of_foldl conv p.sols st []
    obtain ⟨f', st', hc', hf'⟩ := ih (p.convertSolutions conv st).2 (acc ++ [(p.convertSolutions conv st).1])
    refine ⟨(p.convertSolutions conv st).1 :: f', st', ?_, ?_⟩
    · refine .cons (st' := (p.convertSolutions conv st).2) rfl ?_ hc'
      have hf2 : p.convertSolutions conv st = (⟨p.costs, rs⟩, st1) := by
        simp only [NonDomPoint.convertSolutions] at *
        rw [hf]; simp
      rw [hf2]; exact hc
    · simp only [List.foldl_cons, hf']; simp

/-- **C26.** `convert_solutions` converts the solutions one after the other, in order, threading the state of the
closure, and keeps points and costs. -/
theorem convertSolutions_spec {S S2 σ : Type} (conv : S → σ → S2 × σ) (f : ParetoFront S) (st : σ) :
    ConvertsFront conv f st (ParetoFront.convertSolutions conv f st).1 (ParetoFront.convertSolutions conv f st).2 := by
  obtain ⟨f', st', hc, hf⟩ := convertsFront_of_foldl conv f st []
  unfold ParetoFront.convertSolutions
  rw [hf]; simpa using hc

/-- **C26.** Numbers, order and costs of points and the number of solutions at each of them are unchanged. -/
theorem convertSolutions_shape {S S2 σ : Type} (conv : S → σ → S2 × σ) (f : ParetoFront S) (st : σ) :
    List.Forall₂ (fun (q : NonDomPoint S2) (p : NonDomPoint S) => q.costs = p.costs ∧ q.nSols = p.nSols)
      (ParetoFront.convertSolutions conv f st).1 f := by
  have h := convertSolutions_spec conv f st
  generalize (ParetoFront.convertSolutions conv f st).1 = f' at h
  generalize (ParetoFront.convertSolutions conv f st).2 = st' at h
  induction h with
  | nil => exact .nil
  | cons hcosts hconv _ ih =>
    refine .cons ⟨hcosts, ?_⟩ ih
    unfold NonDomPoint.nSols
    exact hconv.length_eq

/-- **C26.** A stateless conversion is applied to each solution in place. -/
theorem convertSolutions_map {S S2 : Type} (g : S → S2) (f : ParetoFront S) :
    (ParetoFront.convertSolutions (fun s (_ : Unit) => (g s, ())) f ()).1
      = f.map fun p => ⟨p.costs, p.sols.map g⟩ := by
  have h := convertSolutions_spec (fun s (_ : Unit) => (g s, ())) f ()
  generalize (ParetoFront.convertSolutions (fun s (_ : Unit) => (g s, ())) f ()).1 = f' at h
  generalize (ParetoFront.convertSolutions (fun s (_ : Unit) => (g s, ())) f ()).2 = st' at h
  have key : ∀ (f : ParetoFront S) st (f' : ParetoFront S2) st',
      ConvertsFront (fun s (_ : Unit) => (g s, ())) f st f' st' → f' = f.map fun p => ⟨p.costs, p.sols.map g⟩ := by
    intro f st f' st' h
    induction h with
    | nil => rfl
    | @cons p q f f' st st' st'' hcosts hconv _ ih =>
      have : ∀ (a : List S) st (b : List S2) st', Converts (fun s (_ : Unit) => (g s, ())) a st b st' →
          b = a.map g := by
        intro a st b st' h
        induction h with
        | nil => rfl
        | cons h1 _ ih => simp [h1, ih]
      have h2 := this _ _ _ _ hconv
      cases q
      simp_all
  exact key _ _ _ _ (h)

/-- A front with two points and three solutions, converted with a counting closure. -/
example : (ParetoFront.convertSolutions (fun (s : Nat) (k : Nat) => (s + k, k + 1))
    [⟨[1, 2], [10, 20]⟩, ⟨[2, 1], [30]⟩] 0) = ([⟨[1, 2], [10, 21]⟩, ⟨[2, 1], [32]⟩], 3) := by decide

theorem checkDominatedLoop_neg (c1 c2 : List Int) (h : c1.length = c2.length) :
    checkDominatedLoop (-1) c1 c2 = true ↔ WeaklyDominates c1 c2 := by
  induction c1 generalizing c2 with
  | nil => cases c2 <;> simp_all [checkDominatedLoop, WeaklyDominates]
  | cons a c1 ih =>
    cases c2 with
    | nil => simp at h
    | cons b c2 =>
      simp only [List.length_cons, Nat.add_right_cancel_iff] at h
      simp only [checkDominatedLoop, checkDominatedStep, WeaklyDominates, List.forall₂_cons] at *
      rcases lt_trichotomy a b with hab | hab | hab
      · simp [hab, hab.le, ih c2 h]
      · simp [hab, ih c2 h]
      · simp [hab, not_lt.2 hab.le, not_le.2 hab]

theorem checkDominatedLoop_pos (c1 c2 : List Int) (h : c1.length = c2.length) :
    checkDominatedLoop 1 c1 c2 = true ↔ WeaklyDominates c2 c1 := by
  induction c1 generalizing c2 with
  | nil => cases c2 <;> simp_all [checkDominatedLoop, WeaklyDominates]
  | cons a c1 ih =>
    cases c2 with
    | nil => simp at h
    | cons b c2 =>
      simp only [List.length_cons, Nat.add_right_cancel_iff] at h
      simp only [checkDominatedLoop, checkDominatedStep, WeaklyDominates, List.forall₂_cons] at *
      rcases lt_trichotomy a b with hab | hab | hab
      · simp [hab, not_le.2 hab]
      · simp [hab, ih c2 h]
      · simp [hab, hab.le, not_lt.2 hab.le, ih c2 h]

/-- **C44.** The consistency check flags a pair of cost vectors exactly if one of them dominates the other. -/
theorem checkDominated_iff (c1 c2 : List Int) (h : c1.length = c2.length) :
    checkDominated c1 c2 = true ↔ Dominates c1 c2 ∨ Dominates c2 c1 := by
  unfold checkDominated
  induction c1 generalizing c2 with
  | nil => cases c2 <;> simp_all [checkDominatedLoop, Dominates, WeaklyDominates]
  | cons a c1 ih =>
    cases c2 with
    | nil => simp at h
    | cons b c2 =>
      simp only [List.length_cons, Nat.add_right_cancel_iff] at h
      simp only [checkDominatedLoop, checkDominatedStep]
      rcases lt_trichotomy a b with hab | hab | hab
      · rw [if_pos hab]
        have := checkDominatedLoop_neg c1 c2 h
        simp [this, Dominates, WeaklyDominates, hab.le, not_le.2 hab, hab.ne, hab.ne']
      · subst hab
        simp [ih c2 h, Dominates, WeaklyDominates]
      · rw [if_neg (not_lt.2 hab.le), if_pos hab]
        have := checkDominatedLoop_pos c1 c2 h
        simp [this, Dominates, WeaklyDominates, hab.le, not_le.2 hab, hab.ne, hab.ne']

/-- Three pairs of vectors of equal length: dominating, incomparable, equal. -/
example : checkDominated [1, 2, 3] [1, 2, 4] = true ∧ checkDominated [1, 5, 3] [1, 2, 4] = false ∧
    checkDominated [1, 2] [1, 2] = false := by decide

end Scuttle
