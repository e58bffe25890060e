import Verif.Model.Enc

/-!
# Totalizer databases

The interface of `rustsat::encodings::totdb::Db` as far as `/repo/core/src/algs/coreguided.rs` and
`/repo/core/src/algs/coreboosting.rs` use it. The database itself is in `rustsat` and not in `/repo`, so it is a type
class here; the contract it is assumed to satisfy is `LawfulTotDb` in `Verif/Proof/TotLaws.lean`.
-/

namespace Scuttle

/-- `rustsat::encodings::nodedb::NodeCon`: connection to a node that skips the first `offset` outputs, uses at most
`limit` outputs and counts each with `weight`. Used in `/repo/core/src/algs/coreguided.rs:480`, `:541`. -/
structure NodeCon where
  id : Nat
  offset : Nat
  weight : Nat
  limit : Option Nat
  deriving DecidableEq, Repr

namespace NodeCon

/-- `NodeCon::full`, `/repo/core/src/algs/coreguided.rs:541`. -/
def full (id : Nat) : NodeCon := ⟨id, 0, 1, none⟩

/-- `NodeCon::weighted`, `/repo/core/src/algs/coreboosting.rs:121`. -/
def weighted (id w : Nat) : NodeCon := ⟨id, 0, w, none⟩

/-- `NodeCon::offset_weighted`, `/repo/core/src/algs/coreboosting.rs:111`, `:115`. -/
def offsetWeighted (id off w : Nat) : NodeCon := ⟨id, off, w, none⟩

/-- `NodeCon::single`, the output with number `out` counted from 1, `/repo/core/src/algs/coreguided.rs:480`,
`/repo/core/src/algs/coreboosting.rs:104`. -/
def single (id out w : Nat) : NodeCon := ⟨id, out - 1, w, some 1⟩

end NodeCon

/-- Interface of a totalizer database.
`leaf d l` is `insert(Node::Leaf(l))`, `/repo/core/src/algs/coreguided.rs:540`; `merge d cons` is `merge(cons)` with the
id of the result, `:386`; `len d id` is `d[id].len()`, `:398`; `define d id i n` is
`define_unweighted(id, i, Semantics::If, ..)`, `:813-819`, with `n` the next free variable: new state, literal, clauses
and new next free variable; `reserve d id i n` is `d[id].reserve_vars(i.., ..)`, `:306`; `resetVars` is
`/repo/core/src/algs/pminimal.rs:381`. Running out of memory is not modelled. -/
class TotDb (D : Type) where
  empty : D
  leaf : D → Lit → D × Nat
  merge : D → List NodeCon → D × Nat
  len : D → Nat → Nat
  define : D → Nat → Nat → Nat → D × Lit × List Clause × Nat
  reserve : D → Nat → Nat → Nat → D × Nat
  resetVars : D → D

/-- What `merge_cons` uses of `rustsat`, `/repo/core/src/algs/coreboosting.rs:49-77`: `merge_thorough`, whether a node is
a `Node::Leaf` or `Node::Unit`, `Totalizer::from_raw` and `GeneralizedTotalizer::from_raw`. -/
class MergeEnc (P C D : Type) where
  mergeThorough : D → List NodeCon → D × NodeCon
  isUnit : D → Nat → Bool
  totFromRaw : Nat → Nat → D → C
  gteFromRaw : NodeCon → D → Nat → P

end Scuttle
