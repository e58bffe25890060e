import Verif.Model.Pb

/-!
# What a proof checker accepts

Specification of proof steps of VeriPB, apart from the code: unit propagation on pseudo-Boolean constraints and the
redundance rule, in terms of assignments.
-/

/-- Two constraints are the same up to how they are written: under each assignment the left-hand side exceeds the bound by
the same amount. -/
def Scuttle.LbCon.Same {V : Type} (c d : Scuttle.LbCon V) : Prop := ∀ ρ, c.slack ρ = d.slack ρ

namespace Scuttle.Spec

variable {V : Type} [DecidableEq V]

/-- A total assignment agrees with a partial one. -/
def ExtendedBy (ρ : V → Bool) (σ : V → Option Bool) : Prop := ∀ v b, σ v = some b → ρ v = b

/-- Unit propagation on constraints `cs`, starting from the partial assignment `σ`, ends in a conflict. A constraint
propagates a value if it cannot be satisfied with the other one, and is in conflict if it cannot be satisfied at all;
each time only one constraint is looked at. -/
inductive Conflicts (cs : List (LbCon V)) : (V → Option Bool) → Prop
  | conflict {σ c} : c ∈ cs → (∀ ρ, ExtendedBy ρ σ → ¬ c.Holds ρ) → Conflicts cs σ
  | propagate {σ c} (v : V) (b : Bool) : c ∈ cs → (∀ ρ, ExtendedBy ρ σ → c.Holds ρ → ρ v = b) →
      Conflicts cs (Function.update σ v (some b)) → Conflicts cs σ

/-- Reverse unit propagation: the negation of the constraint and the hints lead to a conflict. -/
def Rup (hints : List (LbCon V)) (c : LbCon V) : Prop := Conflicts (c.neg :: hints) fun _ => none

/-- The assignment after a substitution. -/
def subst (ω : List (Axm V)) (ρ : V → Bool) : V → Bool := fun v =>
  match ω.find? fun a => a.var = v with
  | some a => !a.neg
  | none => ρ v

/-- The redundance rule for a preorder `ord` (`ord a b`: the assignment `a` is at least as good as `b`): each assignment
that satisfies all constraints but not the new one can be mapped to one that satisfies all and is not worse. -/
def Redundant (ord : (V → Bool) → (V → Bool) → Prop) (cs : List (LbCon V)) (c : LbCon V) (ω : List (Axm V)) : Prop :=
  ∀ ρ, (∀ d ∈ cs, d.Holds ρ) → ¬ c.Holds ρ →
    (∀ d ∈ cs, d.Holds (subst ω ρ)) ∧ c.Holds (subst ω ρ) ∧ ord (subst ω ρ) ρ

/-- A constraint no assignment satisfies. -/
def Contradiction (c : LbCon V) : Prop := ∀ ρ, ¬ c.Holds ρ

/-- Constraints in the database that are not deleted. -/
def live (db : ConDb V) : List (LbCon V) := db.filterMap id

/-- A line of a proof is correct. For `red` and `del` this is what the line needs to keep the meaning of the proof; that
the checker also finds the subproofs is stated apart from this where the code gives them. -/
def StepOk (ord : (V → Bool) → (V → Bool) → Prop) (db : ConDb V) : ProofStep V → Prop
  | .pol o => (o.eval db).isSome
  | .rup c hints => ∃ hs, hints.mapM db.find = some hs ∧ Rup hs c
  | .red c ω _ => Redundant ord (live db) c ω
  | .solx ls full => (∀ a ∈ ls, a ∈ full) ∧ ∃ ρ, (∀ a ∈ full, ρ a.var = !a.neg) ∧ ∀ d ∈ live db, d.Holds ρ
  | .core ids => ∀ i ∈ ids, (db.get i).isSome
  | .del ids _ => ∀ i ∈ ids, (db.get i).isSome

/-- All lines of a proof are correct, one after the other. -/
def Accepted (ord : (V → Bool) → (V → Bool) → Prop) : ConDb V → List (ProofStep V) → Prop
  | _, [] => True
  | db, s :: ss => StepOk ord db s ∧ Accepted ord (s.apply db) ss

/-! ## Derived clauses -/

/-- `r` is the resolvent of `d` and `c` on the literal `p` of `d`, and has no variable twice. -/
def Resolvent (p : Axm V) (d c r : List (Axm V)) : Prop :=
  p ∈ d ∧ p.not ∈ c ∧ (r.map Axm.var).Nodup ∧ ∀ l, l ∈ r ↔ (l ∈ d ∧ l ≠ p) ∨ (l ∈ c ∧ l ≠ p.not)

/-- A clause results from a list of clauses by resolving the last one with the one before it, the result with the one
before that and so on. -/
inductive Derives : List (List (Axm V)) → List (Axm V) → Prop
  | last (c) : Derives [c] c
  | resolve {cs c d r} (p : Axm V) : Derives cs d → Resolvent p d c r → Derives (c :: cs) r

/-- Starting with the literals `τ` being true, each clause in turn has only one literal left, which becomes true, up to a
clause that has none left. -/
inductive Propagates : List (Axm V) → List (List (Axm V)) → Prop
  | conflict {τ c cs} : (∀ l ∈ c, l.not ∈ τ) → Propagates τ (c :: cs)
  | unit {τ c cs} (l : Axm V) : l ∈ c → (∀ l' ∈ c, l' ≠ l → l'.not ∈ τ) → Propagates (l :: τ) cs →
      Propagates τ (c :: cs)

end Scuttle.Spec
