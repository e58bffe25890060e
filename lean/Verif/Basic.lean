/-!
# Literals, clauses and assignments

Propositional basics. `rustsat`'s `Var`, `Lit`, `Clause`, `TernaryVal` and `Assignment` (the `rustsat` sources are not
part of `/repo`; the types are used throughout, e.g. `/repo/core/src/algs.rs:9-40`).
-/

namespace Scuttle

/-- A literal: variable index and sign. Models `rustsat::types::Lit` as used in `/repo/core/src/types.rs:10-16`. -/
structure Lit where
  var : Nat
  neg : Bool
  deriving DecidableEq, Repr

/-- The negated literal (`!l` / `-l` in `/repo/core/src/algs.rs:376`). -/
def Lit.not (l : Lit) : Lit := { l with neg := !l.neg }

/-- Positive literal of a variable (`Var::pos_lit`, used in `/repo/core/src/algs/pminimal.rs:633`). -/
def Lit.pos (v : Nat) : Lit := ⟨v, false⟩

/-- Negative literal of a variable. -/
def Lit.negOf (v : Nat) : Lit := ⟨v, true⟩

/-- Total assignments, the semantic domain. -/
abbrev Asg := Nat → Bool

/-- Truth value of a literal under a total assignment. -/
def Lit.eval (m : Asg) (l : Lit) : Bool := (m l.var) != l.neg

/-- Clauses (`rustsat::types::Clause`) as lists of literals. -/
abbrev Clause := List Lit

/-- Truth value of a clause. -/
def clauseEval (m : Asg) (c : Clause) : Bool := c.any (Lit.eval m)

/-- Truth value of a list of clauses. -/
def cnfEval (m : Asg) (cs : List Clause) : Bool := cs.all (clauseEval m)

/-- Truth value of a conjunction of literals (a set of assumptions). -/
def cubeEval (m : Asg) (ls : List Lit) : Bool := ls.all (Lit.eval m)

/-- Three-valued truth values, `rustsat::types::TernaryVal` (used in `/repo/core/src/algs.rs:375`, `:604`). -/
inductive TV where
  | tt
  | ff
  | dc
  deriving DecidableEq, Repr

/-- Embedding of the Booleans. -/
def TV.ofBool : Bool → TV
  | true => .tt
  | false => .ff

/-- `rustsat::types::Assignment`: the values of the variables from 0 on, all further ones are `DontCare`. -/
abbrev Assignment := List TV

namespace Assignment

/-- `Assignment::var_value`: out of range is `DontCare`. -/
def varValue (a : Assignment) (v : Nat) : TV := a.getD v .dc

/-- `Assignment::lit_value` as used in `/repo/core/src/algs.rs:375` and `:603`. -/
def litValue (a : Assignment) (l : Lit) : TV :=
  match varValue a l.var, l.neg with
  | .dc, _ => .dc
  | .tt, false => .tt
  | .tt, true => .ff
  | .ff, false => .ff
  | .ff, true => .tt

/-- `Assignment::truncate(max_var)` as used in `/repo/core/src/algs.rs:694`: keep the variables up to `max_var`. -/
def truncate (a : Assignment) (maxVar : Nat) : Assignment := a.take (maxVar + 1)

/-- The literal made true by value `t` of variable `v`. -/
def litOf (t : TV) (v : Nat) : Option Lit :=
  match t with
  | .tt => some ⟨v, false⟩
  | .ff => some ⟨v, true⟩
  | .dc => none

/-- Helper of `toLits`: literals of the values from variable `v` on. -/
def toLitsFrom : Nat → List TV → List Lit
  | _, [] => []
  | v, t :: ts => (litOf t v).toList ++ toLitsFrom (v + 1) ts

/-- `Assignment::into_iter`: the true literals in order of variables (`/repo/core/src/algs.rs:624`, `:1018`). -/
def toLits (a : Assignment) : List Lit := toLitsFrom 0 a

/-- The values of the first `n` variables in a total assignment. -/
def ofModel (m : Asg) (n : Nat) : Assignment := (List.range n).map fun v => TV.ofBool (m v)

/-- Assign a literal, extending the list as needed (`Assignment::assign_lit` and `FromIterator<Lit>`, used when
solutions are mapped back in `/repo/src/main.rs` `post_solve`). -/
def assignLit (a : Assignment) (l : Lit) : Assignment :=
  let a := a ++ List.replicate (l.var + 1 - a.length) TV.dc
  a.set l.var (TV.ofBool (!l.neg))

/-- `Assignment::from_iter` over literals. -/
def ofLits (ls : List Lit) : Assignment := ls.foldl assignLit []

end Assignment

end Scuttle
