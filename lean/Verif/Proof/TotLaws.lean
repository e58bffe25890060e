import Verif.Proof.Inv
import Verif.Model.CoreBoost

/-!
# Contract of the totalizer database

What is assumed of `rustsat::encodings::totdb::Db` and of `from_raw`. This is part of the trusted base;
`Verif/Proof/RefTot.lean` shows that the contract can be met.
-/

namespace Scuttle

open Spec

/-- The meaning of a totalizer database.

`Node d id` holds if `id` is a node, `Inner d id` if it is one made by `merge` from at least two connections. `cnt d id m`
is the number of true inputs of the node under `m`. `Sound d m` holds if `m` satisfies the clauses emitted so far,
`Exact d m` if in addition each output variable has the value that it stands for. `Below d n` holds if all variables are
below `n`, `Inputs d n` if the variables at the leaves are, `Base d b` if the output variables are at least `b`.
`IsOut d id i l` holds if `l` is output number `i` of the node, which stands for `i < cnt d id`. -/
class TotSem (D : Type) where
  Node : D → Nat → Prop
  Inner : D → Nat → Prop
  cnt : D → Nat → Asg → Nat
  Sound : D → Asg → Prop
  Exact : D → Asg → Prop
  Below : D → Nat → Prop
  Inputs : D → Nat → Prop
  Base : D → Nat → Prop
  IsOut : D → Nat → Nat → Lit → Prop

variable {D : Type}

/-- Nodes keep their meaning. -/
structure DKeep [TotDb D] [TotSem D] (d d' : D) : Prop where
  node : ∀ id, TotSem.Node d id → TotSem.Node d' id
  inner : ∀ id, TotSem.Inner d id → TotSem.Inner d' id
  cnt : ∀ id m, TotSem.Node d id → TotSem.cnt d' id m = TotSem.cnt d id m
  len : ∀ id, TotSem.Node d id → TotDb.len d' id = TotDb.len d id

/-- Nodes and outputs keep their meaning. -/
structure DStep [TotDb D] [TotSem D] (d d' : D) : Prop extends DKeep d d' where
  out : ∀ id i l, TotSem.IsOut d id i l → TotSem.IsOut d' id i l

/-- Applies a limit on the number of outputs. -/
def NodeCon.cap (c : NodeCon) (x : Nat) : Nat :=
  match c.limit with
  | none => x
  | some k => min k x

/-- Value of a connection. -/
def conVal [TotSem D] (d : D) (m : Asg) (c : NodeCon) : Nat := c.weight * c.cap (TotSem.cnt d c.id m - c.offset)

/-- Number of outputs that a connection uses. -/
def conLen [TotDb D] (d : D) (c : NodeCon) : Nat := c.cap (TotDb.len d c.id - c.offset)

/-- Contract of the totalizer database. Merging is only described for connections of weight 1, each with at least one
output, which is how `/repo/core/src/algs/coreguided.rs:386` uses it. -/
class LawfulTotDb (D : Type) [TotDb D] extends TotSem D where
  inner_node : ∀ (d : D) id, Inner d id → Node d id
  cnt_le : ∀ (d : D) id m, Node d id → cnt d id m ≤ TotDb.len d id
  cnt_local : ∀ d n id m m', Inputs d n → Node d id → AgreeBelow n m m' → cnt d id m = cnt d id m'
  exact_local : ∀ d n m m', Below d n → AgreeBelow n m m' → Exact d m → Exact d m'
  below_mono : ∀ d n n', Below d n → n ≤ n' → Below d n'
  out_node : ∀ (d : D) id i l, IsOut d id i l → Node d id
  out_below : ∀ d n id i l, Below d n → IsOut d id i l → l.var < n
  out_base : ∀ d b id i l, Base d b → Inner d id → IsOut d id i l → b ≤ l.var
  out_inj : ∀ (d : D) id i id' i' l, Inner d id → Inner d id' → IsOut d id i l → IsOut d id' i' l → id = id' ∧ i = i'
  out_sound : ∀ (d : D) id i l m, IsOut d id i l → Sound d m → i < cnt d id m → l.eval m = true
  out_exact : ∀ (d : D) id i l m, IsOut d id i l → Exact d m → l.eval m = true → i < cnt d id m
  empty_sound : ∀ m, Sound (TotDb.empty : D) m
  empty_exact : ∀ m, Exact (TotDb.empty : D) m
  empty_below : ∀ n, Below (TotDb.empty : D) n
  empty_inputs : ∀ n, Inputs (TotDb.empty : D) n
  empty_base : ∀ b, Base (TotDb.empty : D) b
  leaf_step : ∀ (d : D) l, DStep d (TotDb.leaf d l).1
  leaf_node : ∀ (d : D) l, Node (TotDb.leaf d l).1 (TotDb.leaf d l).2
  leaf_cnt : ∀ (d : D) l m, cnt (TotDb.leaf d l).1 (TotDb.leaf d l).2 m = if l.eval m = true then 1 else 0
  leaf_len : ∀ (d : D) l, TotDb.len (TotDb.leaf d l).1 (TotDb.leaf d l).2 = 1
  leaf_sound : ∀ (d : D) l m, Sound d m → Sound (TotDb.leaf d l).1 m
  leaf_exact : ∀ (d : D) l m, Exact d m → Exact (TotDb.leaf d l).1 m
  leaf_below : ∀ (d : D) l n, Below d n → l.var < n → Below (TotDb.leaf d l).1 n
  leaf_inputs : ∀ (d : D) l n, Inputs d n → l.var < n → Inputs (TotDb.leaf d l).1 n
  leaf_base : ∀ (d : D) l b, Base d b → Base (TotDb.leaf d l).1 b
  merge_step : ∀ (d : D) cons, DStep d (TotDb.merge d cons).1
  merge_inner : ∀ (d : D) cons, 2 ≤ cons.length → Inner (TotDb.merge d cons).1 (TotDb.merge d cons).2
  merge_new : ∀ (d : D) cons, 2 ≤ cons.length → ¬ Node d (TotDb.merge d cons).2
  merge_cnt : ∀ (d : D) cons m, 2 ≤ cons.length → (∀ c ∈ cons, Node d c.id ∧ c.weight = 1 ∧ 0 < conLen d c) →
    cnt (TotDb.merge d cons).1 (TotDb.merge d cons).2 m = (cons.map (conVal d m)).sum
  merge_len : ∀ (d : D) cons, 2 ≤ cons.length → (∀ c ∈ cons, Node d c.id ∧ c.weight = 1 ∧ 0 < conLen d c) →
    TotDb.len (TotDb.merge d cons).1 (TotDb.merge d cons).2 = (cons.map (conLen d)).sum
  merge_sound : ∀ (d : D) cons m, Sound d m → Sound (TotDb.merge d cons).1 m
  merge_exact : ∀ (d : D) cons m, Exact d m → Exact (TotDb.merge d cons).1 m
  merge_below : ∀ (d : D) cons n, Below d n → Below (TotDb.merge d cons).1 n
  merge_inputs : ∀ (d : D) cons n, Inputs d n → Inputs (TotDb.merge d cons).1 n
  merge_base : ∀ (d : D) cons b, Base d b → Base (TotDb.merge d cons).1 b
  define_step : ∀ (d : D) id i n, DStep d (TotDb.define d id i n).1
  define_out : ∀ (d : D) id i n, Node d id → i < TotDb.len d id →
    IsOut (TotDb.define d id i n).1 id i (TotDb.define d id i n).2.1
  define_next : ∀ (d : D) id i n, Below d n → n ≤ (TotDb.define d id i n).2.2.2
  define_below : ∀ (d : D) id i n, Below d n → Below (TotDb.define d id i n).1 (TotDb.define d id i n).2.2.2
  define_vars : ∀ (d : D) id i n, Below d n → VarsBelow (TotDb.define d id i n).2.2.2 (TotDb.define d id i n).2.2.1
  define_sound : ∀ (d : D) id i n m, Below d n → Sound d m → cnfEval m (TotDb.define d id i n).2.2.1 = true →
    Sound (TotDb.define d id i n).1 m
  define_exact : ∀ (d : D) id i n m, Below d n → Exact d m → ∃ m', AgreeBelow n m m' ∧
    cnfEval m' (TotDb.define d id i n).2.2.1 = true ∧ Exact (TotDb.define d id i n).1 m'
  define_inputs : ∀ (d : D) id i n k, Inputs d k → Inputs (TotDb.define d id i n).1 k
  define_base : ∀ (d : D) id i n b, Base d b → Below d n → b ≤ n → Base (TotDb.define d id i n).1 b
  reserve_step : ∀ (d : D) id i n, DStep d (TotDb.reserve d id i n).1
  reserve_next : ∀ (d : D) id i n, Below d n → n ≤ (TotDb.reserve d id i n).2
  reserve_below : ∀ (d : D) id i n, Below d n → Below (TotDb.reserve d id i n).1 (TotDb.reserve d id i n).2
  reserve_sound : ∀ (d : D) id i n m, Sound d m → Sound (TotDb.reserve d id i n).1 m
  reserve_exact : ∀ (d : D) id i n m, Below d n → Exact d m → ∃ m', AgreeBelow n m m' ∧ Exact (TotDb.reserve d id i n).1 m'
  reserve_inputs : ∀ (d : D) id i n k, Inputs d k → Inputs (TotDb.reserve d id i n).1 k
  reserve_base : ∀ (d : D) id i n b, Base d b → Below d n → b ≤ n → Base (TotDb.reserve d id i n).1 b
  reset_keep : ∀ d : D, DKeep d (TotDb.resetVars d)
  reset_sound : ∀ (d : D) m, Sound (TotDb.resetVars d) m
  reset_exact : ∀ (d : D) m, Exact (TotDb.resetVars d) m
  reset_below : ∀ (d : D) n, Inputs d n → Below (TotDb.resetVars d) n
  reset_inputs : ∀ (d : D) n, Inputs d n → Inputs (TotDb.resetVars d) n

/-- Contract of `merge_thorough` and `from_raw`. `MaxLeaf d c w` holds if no weight in the encoding below the connection
`c` exceeds `w`, which `GeneralizedTotalizer::from_raw` relies on. A limit on the number of outputs is only left if the
connection was the only one given. -/
class LawfulMergeEnc (P C D : Type) [UbEnc P] [UbEnc C] [LawfulUbEnc P] [LawfulUbEnc C] [TotDb D] [LawfulTotDb D]
    [MergeEnc P C D] where
  MaxLeaf : D → NodeCon → Nat → Prop
  merge_keep : ∀ (d : D) cons, DKeep d (MergeEnc.mergeThorough P C d cons).1
  merge_sound : ∀ (d : D) cons m, TotSem.Sound d m → TotSem.Sound (MergeEnc.mergeThorough P C d cons).1 m
  merge_exact : ∀ (d : D) cons m, TotSem.Exact d m → TotSem.Exact (MergeEnc.mergeThorough P C d cons).1 m
  merge_below : ∀ (d : D) cons n, TotSem.Below d n → TotSem.Below (MergeEnc.mergeThorough P C d cons).1 n
  merge_root : ∀ (d : D) cons, cons ≠ [] → (∀ c ∈ cons, TotSem.Node d c.id ∧ 0 < c.weight ∧ 0 < conLen d c) →
    let r := MergeEnc.mergeThorough P C d cons
    TotSem.Node r.1 r.2.id ∧ (∀ m, conVal r.1 m r.2 = (cons.map (conVal d m)).sum) ∧
    r.2.weight * conLen r.1 r.2 = (cons.map fun c => c.weight * conLen d c).sum ∧
    (r.2.limit = none ∨ r.1 = d ∧ cons = [r.2]) ∧
    (r.2.weight = 1 → MergeEnc.isUnit P C r.1 r.2.id = false → r.2.offset = 0) ∧
    ∀ w, (∀ c ∈ cons, c.weight ≤ w) → MaxLeaf r.1 r.2 w
  tot_val : ∀ (d : D) id off m, TotSem.Node d id → MergeEnc.isUnit P C d id = true →
    LawfulUbEnc.val (MergeEnc.totFromRaw P id off d : C) m = TotSem.cnt d id m - off
  tot_maxVal : ∀ (d : D) id off, TotSem.Node d id → MergeEnc.isUnit P C d id = true →
    LawfulUbEnc.maxVal (MergeEnc.totFromRaw P id off d : C) = TotDb.len d id - off
  tot_sound : ∀ (d : D) id off m, TotSem.Sound d m → LawfulUbEnc.Sound (MergeEnc.totFromRaw P id off d : C) m
  tot_exact : ∀ (d : D) id off m, TotSem.Exact d m → LawfulUbEnc.Exact (MergeEnc.totFromRaw P id off d : C) m
  tot_below : ∀ (d : D) id off n, TotSem.Below d n → LawfulUbEnc.Below (MergeEnc.totFromRaw P id off d : C) n
  gte_val : ∀ (d : D) c w m, TotSem.Node d c.id → MaxLeaf d c w →
    LawfulUbEnc.val (MergeEnc.gteFromRaw C c d w : P) m = conVal d m c
  gte_maxVal : ∀ (d : D) c w, TotSem.Node d c.id → MaxLeaf d c w →
    LawfulUbEnc.maxVal (MergeEnc.gteFromRaw C c d w : P) = c.weight * conLen d c
  gte_sound : ∀ (d : D) c w m, TotSem.Sound d m → LawfulUbEnc.Sound (MergeEnc.gteFromRaw C c d w : P) m
  gte_exact : ∀ (d : D) c w m, TotSem.Exact d m → LawfulUbEnc.Exact (MergeEnc.gteFromRaw C c d w : P) m
  gte_below : ∀ (d : D) c w n, TotSem.Below d n → LawfulUbEnc.Below (MergeEnc.gteFromRaw C c d w : P) n

end Scuttle
