import Verif.Model.Types
import Mathlib.Data.List.Dedup

/-!
# Pseudo-Boolean constraints and the operations of VeriPB proofs

The proof checker VeriPB and the crate `pigeons`, which writes proofs for it, are not in `/repo`. This file has what the
code in `/repo` uses of them: constraints (`LbConstraint`, `/repo/core/src/algs/proofs.rs:785-807`), the operations of an
`OperationSequence` as VeriPB defines them, and the database of constraints that a proof builds up.
-/

namespace Scuttle

/-- `pigeons::Axiom`: a variable or its negation, used in `/repo/core/src/algs/proofs.rs:786`. -/
structure Axm (V : Type) where
  var : V
  neg : Bool
  deriving DecidableEq, Repr

namespace Axm

variable {V : Type}

/-- Negation `!lit`, used in `/repo/core/src/algs/proofs.rs:245`. -/
def not (a : Axm V) : Axm V := ⟨a.var, !a.neg⟩

/-- Value under an assignment: 1 if the literal is true, 0 if not. -/
def val (ρ : V → Bool) (a : Axm V) : Int := if ρ a.var = a.neg then 0 else 1

end Axm

/-- `LbConstraint`, `/repo/core/src/algs/proofs.rs:785-788`: a weighted sum of literals is at least a bound. -/
structure LbCon (V : Type) where
  lits : List (Int × Axm V)
  bound : Int
  deriving DecidableEq, Repr

namespace LbCon

variable {V : Type}

/-- `LbConstraint::clause`, `/repo/core/src/algs/proofs.rs:791-796`. -/
def clause (ls : List (Axm V)) : LbCon V := ⟨ls.map fun a => (1, a), 1⟩

/-- The sum under an assignment. -/
def lhs (ρ : V → Bool) (c : LbCon V) : Int := (c.lits.map fun p => p.1 * p.2.val ρ).sum

/-- By how much the sum exceeds the bound. -/
def slack (ρ : V → Bool) (c : LbCon V) : Int := c.lhs ρ - c.bound

/-- The constraint is satisfied by an assignment. -/
def Holds (ρ : V → Bool) (c : LbCon V) : Prop := c.bound ≤ c.lhs ρ

instance (ρ : V → Bool) (c : LbCon V) : Decidable (c.Holds ρ) := inferInstanceAs (Decidable (_ ≤ _))

/-- Negation of a constraint, as VeriPB forms it for a `rup` or `red` step. -/
def neg (c : LbCon V) : LbCon V := ⟨c.lits.map fun p => (-p.1, p.2), 1 - c.bound⟩

/-- Addition of constraints, `+` in `/repo/cadical-veripb-tracer/src/lib.rs:257`. -/
def add (c d : LbCon V) : LbCon V := ⟨c.lits ++ d.lits, c.bound + d.bound⟩

/-- Multiplication with a number, `*` in `/repo/core/src/algs/coreguided.rs:516`. -/
def mul (c : LbCon V) (n : Nat) : LbCon V := ⟨c.lits.map fun p => (n * p.1, p.2), n * c.bound⟩

section Norm

variable [DecidableEq V]

/-- Coefficient of a variable once the sum is written with variables only. -/
def coefAt (c : LbCon V) (v : V) : Int :=
  (c.lits.map fun p => if p.2.var = v then (if p.2.neg then -p.1 else p.1) else 0).sum

/-- The variables of a constraint, each once. -/
def vars (c : LbCon V) : List V := (c.lits.map fun p => p.2.var).dedup

/-- Literal form of a coefficient: a literal with a coefficient that is not negative. -/
def term (v : V) (a : Int) : Int × Axm V := if a < 0 then (-a, ⟨v, true⟩) else (a, ⟨v, false⟩)

/-- Constant that the negated literals contribute to the sum. -/
def negSum (c : LbCon V) : Int := (c.lits.map fun p => if p.2.neg then p.1 else 0).sum

/-- Degree of the normal form in VeriPB, where each variable occurs once and no coefficient is negative. -/
def degree (c : LbCon V) : Int :=
  c.bound - c.negSum + (c.vars.map fun v => if c.coefAt v < 0 then -c.coefAt v else 0).sum

/-- Normal form in VeriPB. -/
def norm (c : LbCon V) : LbCon V := ⟨c.vars.map fun v => term v (c.coefAt v), c.degree⟩

/-- Saturation, `saturate` in `/repo/cadical-veripb-tracer/src/lib.rs:257`: coefficients of the normal form are cut at
the degree. -/
def saturate (c : LbCon V) : LbCon V :=
  ⟨c.norm.lits.map fun p => (min p.1 (max c.degree 0), p.2), c.degree⟩

/-- Division that rounds up. -/
def ceilDiv (a : Int) (n : Nat) : Int := -((-a) / (n : Int))

/-- Division, `/` in `/repo/core/src/algs/proofs.rs:481`: coefficients and degree of the normal form are divided and
rounded up. -/
def div (c : LbCon V) (n : Nat) : LbCon V := ⟨c.norm.lits.map fun p => (ceilDiv p.1 n, p.2), ceilDiv c.degree n⟩

end Norm

end LbCon

/-! ## Operation sequences and the database -/

/-- `pigeons::ConstraintId`: an absolute id, or the last but `n` constraint, used in
`/repo/core/src/algs/proofs.rs:173-175`. -/
inductive CId where
  | abs (id : Nat)
  | last (n : Nat)
  deriving DecidableEq, Repr

/-- `pigeons::OperationSequence`, used in `/repo/core/src/algs/proofs.rs:173`, `:479-482`,
`/repo/core/src/algs/coreguided.rs:353-356`. -/
inductive Ops where
  | empty
  | id (i : CId)
  | add (a b : Ops)
  | mul (a : Ops) (n : Nat)
  | div (a : Ops) (n : Nat)
  | saturate (a : Ops)
  deriving DecidableEq, Repr

/-- Addition of sequences; the empty sequence adds nothing, `/repo/core/src/algs/coreguided.rs:353-356`. -/
def Ops.plus : Ops → Ops → Ops
  | .empty, b => b
  | a, .empty => a
  | a, b => .add a b

/-- Constraints of a proof by id, the first has id 1; `none` is a deleted constraint. -/
abbrev ConDb (V : Type) := List (Option (LbCon V))

/-- Constraint with an absolute id (`AbsConstraintId`, counted from 1). -/
def ConDb.get {V : Type} (db : ConDb V) (i : Nat) : Option (LbCon V) := if i = 0 then none else (db[i - 1]?).join

/-- Constraint with an id. -/
def ConDb.find {V : Type} (db : ConDb V) : CId → Option (LbCon V)
  | .abs i => db.get i
  | .last n => if n = 0 then none else if n ≤ db.length then db.get (db.length + 1 - n) else none

/-- Value of an operation sequence; `none` if a constraint does not exist, if nothing is to be computed or if the divisor
is zero. -/
def Ops.eval {V : Type} [DecidableEq V] (db : ConDb V) : Ops → Option (LbCon V)
  | .empty => none
  | .id i => db.find i
  | .add a b => do
    let x ← a.eval db
    let y ← b.eval db
    some (x.add y)
  | .mul a n => (a.eval db).map fun x => x.mul n
  | .div a n => if n = 0 then none else (a.eval db).map fun x => x.div n
  | .saturate a => (a.eval db).map LbCon.saturate

/-! ## Proofs -/

/-- `AnyVar`, `/repo/core/src/algs/proofs.rs:810-813`: variables of the proof only and variables of the solver. -/
inductive AnyVar where
  | proof (n : Nat)
  | solver (v : Nat)
  deriving DecidableEq, Repr

/-- `axiom`, `/repo/core/src/algs/proofs.rs:831-833`. -/
def toAxm (l : Lit) : Axm AnyVar := ⟨.solver l.var, l.neg⟩

/-- A clause of the solver as a constraint in the proof. -/
def clauseCon (c : Clause) : LbCon AnyVar := .clause (c.map toAxm)

/-- `pigeons::Derivation` in a subproof, `/repo/core/src/algs/proofs.rs:172`, `:366-370`. -/
inductive Deriv (V : Type) where
  | pol (o : Ops)
  | rup (c : LbCon V) (hints : List CId)
  deriving DecidableEq, Repr

/-- `pigeons::ProofGoalId`, `/repo/core/src/algs/proofs.rs:343`, `/repo/core/src/algs/pminimal.rs:328`. -/
inductive GoalId where
  | specific (n : Nat)
  | con (i : CId)
  deriving DecidableEq, Repr

/-- `pigeons::ProofGoal`, `/repo/core/src/algs/proofs.rs:342-348`. -/
structure Goal (V : Type) where
  id : GoalId
  derivs : List (Deriv V)
  deriving DecidableEq, Repr

/-- Lines of a proof: `operations`, `reverse_unit_prop`, `redundant` (with the substitution and the subproofs),
`exclude_solution`, `move_ids_to_core` and `delete_ids` of `pigeons::Proof`, used in `/repo/core/src/algs/proofs.rs` and
`/repo/cadical-veripb-tracer/src/lib.rs`. Comments are left out. The checker completes the literals `ls` of an excluded
solution by unit propagation; `full` is what it gets (`/repo/core/src/algs/proofs.rs:394-397`). -/
inductive ProofStep (V : Type) where
  | pol (o : Ops)
  | rup (c : LbCon V) (hints : List CId)
  | red (c : LbCon V) (subst : List (Axm V)) (goals : List (Goal V))
  | solx (ls full : List (Axm V))
  | core (ids : List Nat)
  | del (ids : List Nat) (goals : List (Goal V))
  deriving DecidableEq, Repr

/-- Marks constraints as deleted. -/
def ConDb.delete {V : Type} (db : ConDb V) (ids : List Nat) : ConDb V :=
  db.mapIdx fun i c => if i + 1 ∈ ids then none else c

/-- What a line of a proof does to the database, if the checker accepts it. -/
def ProofStep.apply {V : Type} [DecidableEq V] (db : ConDb V) : ProofStep V → ConDb V
  | .pol o => db ++ [o.eval db]
  | .rup c _ => db ++ [some c]
  | .red c _ _ => db ++ [some c]
  | .solx _ full => db ++ [some (.clause (full.map Axm.not))]
  | .core _ => db
  | .del ids _ => db.delete ids

/-- `pigeons::Proof`: the constraints so far, the lines written, the number of constraints of the input and the number
of variables of the proof only. -/
structure Pf (V : Type) where
  db : ConDb V
  steps : List (ProofStep V)
  nInput : Nat
  nProofVars : Nat

namespace Pf

variable {V : Type} [DecidableEq V]

/-- `next_id`, `/repo/core/src/algs/proofs.rs:313`. -/
def nextId (p : Pf V) : Nat := p.db.length + 1

/-- `first_proof_id`, `/repo/cadical-veripb-tracer/src/lib.rs:112`. -/
def firstProofId (p : Pf V) : Nat := p.nInput + 1

/-- Writes a line. -/
def write (p : Pf V) (s : ProofStep V) : Pf V := { p with db := s.apply p.db, steps := p.steps ++ [s] }

/-- Writes a line that adds a constraint and returns its id. -/
def push (p : Pf V) (s : ProofStep V) : Nat × Pf V := (p.nextId, p.write s)

end Pf

end Scuttle
